import Verif.Spec.Numbers
/-!
# Number words of languages that put the unit before the tens
-/
namespace Parce.Num

/-- The words: for units, from ten to nineteen, for tens that follow a unit, other words below hundred, what is between unit
    and tens, and the words for hundred, thousand and million. -/
structure Lexis where
  units : List (String × Nat)
  teens : List (String × Nat)
  tens : List (String × Nat)
  small : List (String × Nat)
  joins : List String
  hundred : String
  thousand : String
  million : String

/-- A word and its kind; all words below hundred have the kind `teen`, as they do not combine. -/
inductive Lexis.Has (X : Lexis) : Word → Kind → Prop
  | unit {w : String} {n : Nat} : (w, n) ∈ X.units → X.Has w.toList (.teen n)
  | teen {w : String} {n : Nat} : (w, n) ∈ X.teens → X.Has w.toList (.teen n)
  | small {w : String} {n : Nat} : (w, n) ∈ X.small → X.Has w.toList (.teen n)
  | both {w j s : String} {a b : Nat} : (w, a) ∈ X.units → j ∈ X.joins → (s, b) ∈ X.tens → X.Has (w.toList ++ (j.toList ++ s.toList)) (.teen (a + b))
  | hundred : X.Has X.hundred.toList .hundred
  | thousand : X.Has X.thousand.toList .thousand
  | million : X.Has X.million.toList .million

/-- A letter of the words. -/
def isLetter (c : Char) : Bool := c.isAlpha || ['ä', 'ë', 'ö', 'ü', 'ß'].contains c

/-- The word in upper or lower case. -/
def InCase (u : Uni) (v : List Char) (w : Word) : Prop := v.map u.fold = w ∧ ∀ c ∈ v, u.low c = [u.fold c]

/-- Not a letter, not blank, and not a hyphen. -/
def Strange (u : Uni) (c : Char) : Prop := ¬ Sep u c ∧ isLetter (u.fold c) = false

/-- The words as a text, with blanks or hyphens after each word (or none). -/
inductive Lexis.Written (X : Lexis) (u : Uni) : List Kind → List Char → Prop
  | nil : X.Written u [] []
  | word {k : Kind} {ks : List Kind} {w : Word} {v s t : List Char} : X.Has w k → InCase u v w → (∀ c ∈ s, Sep u c) → X.Written u ks t →
      X.Written u (k :: ks) (v ++ s ++ t)

/-- A text with numbers, and other characters (but no other words) between them. -/
inductive Lexis.Texts (X : Lexis) (u : Uni) : List Nat → List Char → Prop
  | none {s : List Char} : (∀ c ∈ s, Sep u c) → X.Texts u [] s
  | last {n : Nat} {ks : List Kind} {s t : List Char} : (∀ c ∈ s, Sep u c) → Phrase ks n → X.Written u ks t → X.Texts u [n] (s ++ t)
  | skip {ms : List Nat} {s r : List Char} {c : Char} : (∀ c ∈ s, Sep u c) → Strange u c → X.Texts u ms r → X.Texts u ms (s ++ c :: r)
  | more {n : Nat} {ms : List Nat} {ks : List Kind} {s t r : List Char} {c : Char} : (∀ c ∈ s, Sep u c) → Phrase ks n → X.Written u ks t →
      Strange u c → X.Texts u ms r → X.Texts u (n :: ms) (s ++ t ++ c :: r)

/-- Dutch words. Left out are `vijftig`, `zestig`, `zeventig` and `negentig`, when they do not follow a unit. -/
def dutchLexis : Lexis where
  units := [("een", 1), ("twee", 2), ("drie", 3), ("vier", 4), ("vijf", 5), ("zes", 6), ("zeven", 7), ("acht", 8), ("negen", 9)]
  teens := [("tien", 10), ("elf", 11), ("twaalf", 12), ("dertien", 13), ("veertien", 14), ("vijftien", 15), ("zestien", 16),
    ("zeventien", 17), ("achttien", 18), ("negentien", 19)]
  tens := [("twintig", 20), ("dertig", 30), ("veertig", 40), ("vijftig", 50), ("zestig", 60), ("zeventig", 70), ("tachtig", 80), ("negentig", 90)]
  small := [("nul", 0), ("twintig", 20), ("dertig", 30), ("veertig", 40), ("tachtig", 80)]
  joins := ["en", "ën"]
  hundred := "honderd"
  thousand := "duizend"
  million := "miljoen"

/-- German words. Left out are `dreißig`, `dreissig`, `vierzig`, `fünfzig`, `achtzig` and `neunzig`, when they do not follow a unit;
    and `eins`. -/
def germanLexis : Lexis where
  units := [("ein", 1), ("zwei", 2), ("drei", 3), ("vier", 4), ("fünf", 5), ("sechs", 6), ("sieben", 7), ("acht", 8), ("neun", 9)]
  teens := [("zehn", 10), ("elf", 11), ("zwölf", 12), ("dreizehn", 13), ("vierzehn", 14), ("fünfzehn", 15), ("sechzehn", 16),
    ("siebzehn", 17), ("achtzehn", 18), ("neunzehn", 19)]
  tens := [("zwanzig", 20), ("dreißig", 30), ("dreissig", 30), ("vierzig", 40), ("fünfzig", 50), ("sechzig", 60), ("siebzig", 70),
    ("achtzig", 80), ("neunzig", 90)]
  small := [("null", 0), ("zwanzig", 20), ("sechzig", 60), ("siebzig", 70)]
  joins := ["und"]
  hundred := "hundert"
  thousand := "tausend"
  million := "million"

/-- The kinds of the words for a number below 10¹². -/
def spellTeens : Nat → List Kind := spellWith (spellWith (spellWith (fun n => [.teen n]) .hundred 100) .thousand 1000) .million 1000000

end Parce.Num
