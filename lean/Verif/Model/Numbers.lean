import Verif.Model.ReGroup
import Verif.Model.Transform
/-!
# Model of parce/lang/numbers.py

Characters are Lean's `Char` (there are no surrogates). What depends on the Unicode database is a
parameter, see `Uni`.
-/
namespace Parce.Num

abbrev Word := List Char

/-- What the module `re` and the type `str` know about characters: `space` is `\s`; with IGNORECASE, a (lower case)
    character `c` in a pattern matches a character `x` if `fold x = c`; `low x` is `x.lower()`. (Python's `lower` also
    looks at the characters around a final sigma, which does not matter here.) -/
structure Uni where
  space : Char → Bool
  fold : Char → Char
  low : Char → List Char

/-- The lexicons, `numbers.py:165-205`, `255-267`. -/
inductive NL where
  | root | number | n99 | p1 | p2 | p3 | p6
deriving DecidableEq, Repr

/-- The actions. `pair` is `bygroup(Number, Number)`; `none` stands for no action. -/
inductive NA where
  | number | pair | skip | none
deriving DecidableEq, Repr

def groups : NA → Option (List NA)
  | .pair => some [.number, .number]
  | _ => .none

def rule (p : Pat Char) (a : NA) (t : Option (Target NL) := none) : PRule Char NL NA := ⟨p, fun _ _ => (a, t)⟩

/-! ### Patterns -/

/-- A character, with IGNORECASE. -/
def chr (u : Uni) (c : Char) : Pat Char := .set (fun x => u.fold x == c)

/-- The characters of a word, with IGNORECASE. -/
def lit (u : Uni) : Word → Pat Char
  | [] => .eps
  | [c] => chr u c
  | c :: w => .cat (chr u c) (lit u w)

/-- Put a word before all shorter ones. -/
def putWord (w : Word) : List Word → List Word
  | [] => [w]
  | v :: vs => if v.length ≤ w.length then w :: v :: vs else v :: putWord w vs

/-- The words, the longest first. -/
def longestFirst : List Word → List Word
  | [] => []
  | w :: ws => putWord w (longestFirst ws)

/-- `words(...)`, `rule.py:330-349`, with IGNORECASE. `words2regexp` builds an expression that finds the longest word
    (C77); here that is an expression with the longest word first, see `C82_words`. -/
def words (u : Uni) (ws : List Word) : Pat Char := .alts ((longestFirst ws).map (lit u))

/-- `[\s-]` -/
def isSkip (u : Uni) (c : Char) : Bool := u.space c || c == '-'

/-- `_SKIP`, `numbers.py:154`. -/
def skipRule (u : Uni) : PRule Char NL NA := rule (.plus (.set (isSkip u))) .skip

/-! ### The lexicons -/

/-- What a language adds to the class `Numbers`: the rules of `n99` and `p1` (after `_SKIP`), and the words for
    hundred, thousand and million, `numbers.py:168-170`; and `_VALUES`, `numbers.py:214`. -/
structure Tongue where
  n99 : List (PRule Char NL NA)
  p1 : List (PRule Char NL NA)
  hundred : Pat Char
  thousand : Pat Char
  million : Pat Char
  values : List (Word × Nat)

/-- The rules, `numbers.py:172-205`. -/
def rules (u : Uni) (g : Tongue) : NL → List (PRule Char NL NA)
  | .root => []
  | .number => []
  | .n99 => skipRule u :: g.n99
  | .p1 => skipRule u :: g.p1
  | .p2 => [skipRule u, rule g.hundred .number (some ⟨1, [.n99]⟩)]
  | .p3 => [skipRule u, rule g.thousand .number (some ⟨1, [.p2, .n99]⟩)]
  | .p6 => [skipRule u, rule g.million .number (some ⟨1, [.p3, .p2, .n99]⟩)]

/-- The default targets, `numbers.py:172-205`. -/
def dflt : NL → Dflt Char NL NA
  | .root => .target ⟨0, [.number, .p6, .p3, .p2, .n99]⟩
  | _ => .target ⟨1, []⟩

/-- A subclass of `Numbers`, `numbers.py:165-205`. -/
def lang (u : Uni) (g : Tongue) : Lang Char NL NA RM :=
  grpLang .none (· == .skip) groups (fun _ => false) (rules u g) dflt

/-! ### The transform -/

/-- Python values; `error` stands for an exception that was raised. -/
inductive NV where
  | int (n : Nat)
  | list (l : List Nat)
  | error
deriving DecidableEq, Repr

abbrev Itm := TItm Char NL NA NV NL

/-- `i.obj`, for all items; `none` for an exception (a token has no attribute `obj`). -/
def objs : List Itm → Option (List Nat)
  | [] => some []
  | .item _ (.int n) :: is => (objs is).map (n :: ·)
  | _ :: _ => none

/-- `root`, `numbers.py:216-218`. -/
def rootOf (is : List Itm) : NV := match objs is with
  | some l => .list l
  | none => .error

/-- `number`, `numbers.py:220-222`. -/
def numberOf (is : List Itm) : NV := match objs is with
  | some l => .int l.sum
  | none => .error

/-- `d[w]`; `none` for KeyError. -/
def look (d : List (Word × Nat)) (w : Word) : Option Nat := (d.find? (fun x => x.1 == w)).map (·.2)

/-- `_VALUES[i.text.lower()]`, for all items; `none` for an exception. -/
def texts (u : Uni) (d : List (Word × Nat)) : List Itm → Option (List Nat)
  | [] => some []
  | .tok t :: is => match look d (t.text.flatMap u.low) with
    | some n => (texts u d is).map (n :: ·)
    | none => none
  | _ :: _ => none

/-- `n99`, `numbers.py:224-226`. -/
def n99Of (u : Uni) (d : List (Word × Nat)) (is : List Itm) : NV := match texts u d is with
  | some l => .int l.sum
  | none => .error

/-- The loop of `_factor_func`, `numbers.py:230-237`; `vs` are the `values`, and `f` is the factor. -/
def factorOf (f : Nat) (vs : List Nat) : List Itm → NV
  | [] => .int vs.sum
  | .tok _ :: _ => .int (if vs = [] then f else f * vs.sum)
  | .item _ (.int n) :: is => factorOf f (vs ++ [n]) is
  | _ :: _ => .error

/-- `NumbersTransform`, `numbers.py:208-245`, with `p1 = n99`, `numbers.py:297`. -/
def method (u : Uni) (g : Tongue) : NL → Meth Char NL NA NV NL
  | .root => ⟨fun il => rootOf il.elems, false⟩
  | .number => ⟨fun il => numberOf il.elems, false⟩
  | .n99 => ⟨fun il => n99Of u g.values il.elems, false⟩
  | .p1 => ⟨fun il => n99Of u g.values il.elems, false⟩
  | .p2 => ⟨fun il => factorOf 100 [] il.elems, false⟩
  | .p3 => ⟨fun il => factorOf 1000 [] il.elems, false⟩
  | .p6 => ⟨fun il => factorOf 1000000 [] il.elems, false⟩

def env (u : Uni) (g : Tongue) : TrEnv Char NL NA NV Unit NL where
  language _ := ()
  name l := l
  find _ l := some (method u g l)

/-- `_values`, `numbers.py:157-162`, with the entries that are added later before them. -/
def values (tens to19 : List Word) (more : List (Word × Nat) := []) : List (Word × Nat) :=
  more ++ tens.mapIdx (fun i w => (w, (i + 2) * 10)) ++ to19.mapIdx (fun i w => (w, i))

/-! ### English -/

/-- `ENGLISH_TO19`, `numbers.py:103-107`. -/
def enTo19 : List Word :=
  ["zero", "one", "two", "three", "four", "five", "six", "seven", "eight", "nine", "ten", "eleven", "twelve", "thirteen",
   "fourteen", "fifteen", "sixteen", "seventeen", "eighteen", "nineteen"].map String.toList

/-- `ENGLISH_TENS`, `numbers.py:110-113`. -/
def enTens : List Word := ["twenty", "thirty", "forty", "fifty", "sixty", "seventy", "eighty", "ninety"].map String.toList

/-- `English`, `numbers.py:248-267`, and `EnglishTransform`, `numbers.py:270-297`. -/
def english (u : Uni) : Tongue where
  n99 := [rule (words u enTens) .number (some ⟨1, [.p1]⟩), rule (words u enTo19) .number (some ⟨1, []⟩)]
  p1 := [rule (words u ((enTo19.take 10).drop 1)) .number (some ⟨1, []⟩)]
  hundred := lit u "hundred".toList
  thousand := lit u "thousand".toList
  million := lit u "million".toList
  values := values enTens enTo19

/-! ### Dutch, German, French -/

/-- `NEDERLANDS_TO19`, `numbers.py:116-120`. -/
def nlTo19 : List Word :=
  ["nul", "een", "twee", "drie", "vier", "vijf", "zes", "zeven", "acht", "negen", "tien", "elf", "twaalf", "dertien",
   "veertien", "vijftien", "zestien", "zeventien", "achttien", "negentien"].map String.toList

/-- `NEDERLANDS_TENS`, `numbers.py:123-126`. -/
def nlTens : List Word :=
  ["twintig", "dertig", "veertig", "vijftig", "zestig", "zeventig", "tachtig", "negentig"].map String.toList

/-- `\s*` -/
def spaces (u : Uni) : Pat Char := .star (.set u.space)

/-- `[\s-]*` -/
def skips (u : Uni) : Pat Char := .star (.set (isSkip u))

/-- `Nederlands`, `numbers.py:300-316`, and `NederlandsTransform`, `numbers.py:319-344`. (There is no lexicon `p1`.) -/
def dutch (u : Uni) : Tongue where
  n99 :=
    [rule (words u (nlTo19.drop 10)) .number (some ⟨1, []⟩),
     rule (.cat (.grp 1 (words u ((nlTo19.take 10).drop 1)))
      (.opt (.cat (spaces u) (.cat (.cat (.set fun x => u.fold x == 'e' || u.fold x == 'ë') (chr u 'n')) (.cat (spaces u)
        (.grp 2 (words u nlTens)))))))
      .pair (some ⟨1, []⟩),
     rule (words u nlTens) .number (some ⟨1, []⟩),
     rule (lit u "nul".toList) .number (some ⟨1, []⟩)]
  p1 := []
  hundred := lit u "honderd".toList
  thousand := lit u "duizend".toList
  million := lit u "miljoen".toList
  values := values nlTens nlTo19

/-- `DEUTSCH_TO19`, `numbers.py:129-133`. -/
def deTo19 : List Word :=
  ["null", "ein", "zwei", "drei", "vier", "fünf", "sechs", "sieben", "acht", "neun", "zehn", "elf", "zwölf", "dreizehn",
   "vierzehn", "fünfzehn", "sechzehn", "siebzehn", "achtzehn", "neunzehn"].map String.toList

/-- `DEUTSCH_TENS`, `numbers.py:136-139`. -/
def deTens : List Word :=
  ["zwanzig", "dreißig", "vierzig", "fünfzig", "sechzig", "siebzig", "achtzig", "neunzig"].map String.toList

/-- `Deutsch`, `numbers.py:347-368`, and `DeutschTransform`, `numbers.py:371-403`. (There is no lexicon `p1`.) -/
def german (u : Uni) : Tongue where
  n99 :=
    [rule (words u (deTo19.drop 10)) .number (some ⟨1, []⟩),
     rule (.cat (.grp 1 (words u ((deTo19.take 10).drop 1)))
      (.opt (.cat (spaces u) (.cat (lit u "und".toList) (.cat (spaces u)
        (.grp 2 (words u (deTens ++ ["dreissig".toList]))))))))
      .pair (some ⟨1, []⟩),
     rule (words u (deTens ++ ["dreissig".toList] ++ deTo19.take 1 ++ ["eins".toList])) .number (some ⟨1, []⟩)]
  p1 := []
  hundred := lit u "hundert".toList
  thousand := lit u "tausend".toList
  million := lit u "million".toList
  values := values deTens deTo19 [("eins".toList, 1), ("dreissig".toList, 30)]

/-- `FRANCAIS_TO19`, `numbers.py:142-146`. -/
def frTo19 : List Word :=
  ["zéro", "un", "deux", "trois", "quatre", "cinq", "six", "sept", "huit", "neuf", "dix", "onze", "douze", "treize",
   "quatorze", "quinze", "seize", "dix-sept", "dix-huit", "dix-neuf"].map String.toList

/-- `FRANCAIS_TENS`, `numbers.py:149-152`. -/
def frTens : List Word :=
  ["vingt", "trente", "quarante", "cinquante", "soixante", "soixante-dix", "quatre-vingt", "quatre-vingt-dix"].map String.toList

/-- `Français`, `numbers.py:406-430`, and `FrançaisTransform`, `numbers.py:433-463`. (There is no lexicon `p1`.) -/
def french (u : Uni) : Tongue where
  n99 :=
    [rule (.cat (.grp 1 (words u (["soixante", "quatre-vingt"].map String.toList))) (.cat (skips u)
      (.grp 2 (words u ((frTo19.take 10).drop 1))))) .pair (some ⟨1, []⟩),
     rule (.cat (.grp 1 (words u (frTens.take 5 ++ (frTens.take 7).drop 6)))
      (.opt (.cat (skips u) (.cat (.opt (lit u "et".toList)) (.cat (skips u) (.grp 2 (words u ((frTo19.take 10).drop 1))))))))
      .pair (some ⟨1, []⟩),
     rule (words u frTo19) .number (some ⟨1, []⟩),
     rule (words u (["quatre-vingts", "zero"].map String.toList)) .number (some ⟨1, []⟩)]
  p1 := []
  hundred := .cat (lit u "cent".toList) (.opt (chr u 's'))
  thousand := lit u "mille".toList
  million := .cat (lit u "million".toList) (.opt (chr u 's'))
  values := values frTens frTo19 [("zero".toList, 0), ("quatre-vingts".toList, 80)]

end Parce.Num
