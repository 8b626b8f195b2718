import Verif.Model.Tree
import Verif.Model.Util
/-!
# Model of parce/formatter.py and parce/out/html.py

The theme and the factory are arbitrary functions from actions to formats. The format context
(`start`, `switch` and `done` callbacks) is in Model/FormatContext.
-/
namespace Parce

/-- `FormatCache`, `formatter.py:53-88`; `theme` and `baseformat` are not used here. -/
structure FCache (A F : Type) where
  base : Option F
  unparsed : Option F
  textformat : A → Option F

/-- `format_caches()`: the cache for `None` and those for languages. -/
structure FCaches (A F G : Type) where
  default : Option (FCache A F)
  others : List (G × FCache A F)

variable {α L A F G : Type}

/-- `cache(lang, default_fcache)`, `formatter.py:199`. -/
def FCaches.get [DecidableEq G] (c : FCaches A F G) (d : FCache A F) (lang : G) : FCache A F :=
  ((c.others.find? (fun q => decide (q.1 = lang))).map (·.2)).getD d

/-- What `tokens()` does in order: a call of `check_lang` for a lexicon, or a token yielded. -/
inductive FEv (α L A : Type) where
  | lang (l : L)
  | tok (t : TokN α A)

/-- The loop over one slice when languages are followed, `formatter.py:204-224`. `cur` is the
    context whose children, or a slice of them, are `n`. On leaving a context, `n.parent` is
    the context itself, not the slice (220). -/
def walkLoop : (fuel : Nat) → (cur : L × List (Node α L A)) → (n : List (Node α L A)) → (i : Nat) →
    (stack : List (Nat × L × List (Node α L A))) → List (FEv α L A)
  | 0, _, _, _, _ => []
  | fuel + 1, cur, n, i, stack =>
    match n[i]? with
    | some (.tok t) => .tok t :: walkLoop fuel cur n (i + 1) stack
    | some (.ctx l ds) => .lang l :: walkLoop fuel (l, ds) ds 0 ((i, cur) :: stack)
    | none =>
      match stack with
      | (j, par) :: stack => .lang par.1 :: walkLoop fuel par par.2 (j + 1) stack
      | [] => []

/-- One slice, `formatter.py:202-224`; `r.slices()` only yields contexts. -/
def walkSlice (root : Node α L A) (s : List Nat × Nat × Option Nat) : List (FEv α L A) :=
  match root.at s.1 with
  | some (.ctx l cs) => .lang l :: walkLoop (4 * root.size + 4) (l, cs) ((sliceNodes root s).map (·.2)) 0 []
  | _ => []

/-- `tokens()` for the three cases, `formatter.py:176-224`. -/
def fmtEvents (c : FCaches A F G) (root : Node α L A) (r : Rng) : List (FEv α L A) :=
  match c.default with
  | none => []
  | some _ =>
    if c.others.isEmpty then (r.tokens root).map (fun q => .tok q.2)
    else r.slices.flatMap (walkSlice root)

/-- The tokens with the format cache `fc` at that moment, and `fc` at the end,
    `formatter.py:193-201`. (`check_lang` skips the lookup when the language is the current one,
    which makes no difference.) -/
def withFc [DecidableEq G] (c : FCaches A F G) (langOf : L → G) (d : FCache A F) :
    FCache A F → List (FEv α L A) → List (TokN α A × FCache A F) × FCache A F
  | fc, [] => ([], fc)
  | _, .lang l :: evs => withFc c langOf d (c.get d (langOf l)) evs
  | fc, .tok t :: evs => ((t, fc) :: (withFc c langOf d fc evs).1, (withFc c langOf d fc evs).2)

/-- `if f is not None: yield t.pos, t.end, f`. -/
def yieldTok (t : TokN α A) : Option F → List (Rg F)
  | none => []
  | some f => [⟨t.pos, t.stop, f⟩]

/-- `if f is None: f = fc.base`, `formatter.py:237-238`. -/
def orBase (f base : Option F) : Option F :=
  match f with
  | some f => some f
  | none => base

/-- `stream()` with a format for unparsed text, `formatter.py:228-242`. -/
def streamU (stop : Option Nat) (unparsed : F) : (prev : Nat) → List (TokN α A × FCache A F) → List (Rg F)
  | prev, [] =>
    match stop with
    | some e => if prev < e then [⟨prev, e, unparsed⟩] else []
    | none => []
  | prev, (t, fc) :: ts =>
    (if t.pos > prev then [⟨prev, t.pos, unparsed⟩] else []) ++
      (yieldTok t (orBase (fc.textformat t.act) fc.base) ++ streamU stop unparsed t.stop ts)

/-- `stream()` without a format for unparsed text, `formatter.py:244-256`. -/
def streamB (stop : Option Nat) (last : FCache A F) : (prev : Nat) → List (TokN α A × FCache A F) → List (Rg F)
  | prev, [] =>
    match last.base, stop with
    | some b, some e => if prev < e then [⟨prev, e, b⟩] else []
    | _, _ => []
  | prev, (t, fc) :: ts =>
    (match fc.textformat t.act with
      | some f =>
        (match fc.base with
          | some b => if t.pos > prev then [⟨prev, t.pos, b⟩] else []
          | none => []) ++ [⟨t.pos, t.stop, f⟩]
      | none => []) ++ streamB stop last t.stop ts

/-- The cache used when there is no default theme, `formatter.py:179-180`. -/
def FCache.none : FCache A F := ⟨.none, .none, fun _ => .none⟩

/-- The choice between the two, `formatter.py:226`. -/
def streamOf (unparsed : Option F) (last : FCache A F) (start : Nat) (stop : Option Nat)
    (ts : List (TokN α A × FCache A F)) : List (Rg F) :=
  match unparsed with
  | some u => streamU stop u start ts
  | none => streamB stop last start ts

/-- `stream()`, `formatter.py:226-256`. -/
def fmtStream [DecidableEq G] (c : FCaches A F G) (langOf : L → G) (root : Node α L A) (r : Rng) (start : Nat)
    (stop : Option Nat) : List (Rg F) :=
  let d := c.default.getD FCache.none
  let ts := withFc c langOf d d (fmtEvents c root r)
  streamOf d.unparsed ts.2 start stop ts.1

/-- `format_ranges`, `formatter.py:158-261`, for the tree with root lexicon `l` and children
    `cs`. -/
def formatRanges [DecidableEq G] [DecidableEq F] (c : FCaches A F G) (langOf : L → G) (l : L) (cs : List (Node α L A))
    (start : Nat) (stop : Option Nat) : List (Rg F) :=
  match Rng.fromTree l cs start stop with
  | none => []
  | some r => mergeAdjacent (fixBoundaries start stop (fmtStream c langOf (.ctx l cs) r start stop))

/-- The loop of `format_text`, `formatter.py:271-280`. -/
def fmtTextLoop (text : List α) (stop : Option Nat) : (prev : Nat) → List (Rg F) → List (List α × Option F)
  | prev, [] =>
    if stop.getD text.length > prev then [(slice text prev (stop.getD text.length), none)] else []
  | prev, r :: rs =>
    (if r.pos > prev then [(slice text prev r.pos, none)] else []) ++
      (slice text r.pos r.stop, some r.rest) :: fmtTextLoop text stop r.stop rs

/-- `format_text`, `formatter.py:263-280`. -/
def formatText [DecidableEq G] [DecidableEq F] (c : FCaches A F G) (langOf : L → G) (text : List α) (l : L)
    (cs : List (Node α L A)) (start : Nat) (stop : Option Nat) : List (List α × Option F) :=
  fmtTextLoop text stop start (formatRanges c langOf l cs start stop)

/-- `str.replace` with one character to be replaced. -/
def replaceChar (c : Char) (s : List Char) (text : List Char) : List Char :=
  text.flatMap (fun x => if x = c then s else [x])

/-- `escape`, `out/html.py:158-160`. -/
def escape (text : List Char) : List Char :=
  replaceChar '>' ['&', 'g', 't', ';'] (replaceChar '<' ['&', 'l', 't', ';']
    (replaceChar '&' ['&', 'a', 'm', 'p', ';'] text))

/-- `attrescape`, `out/html.py:163-165`. -/
def attrescape (text : List Char) : List Char :=
  replaceChar '"' ['&', 'q', 'u', 'o', 't', ';'] (escape text)

/-- `span`, `out/html.py:115` and `151`; `attr` is `style` or `class`. -/
def htmlSpan (attr fmt text : List Char) : List Char :=
  ['<', 's', 'p', 'a', 'n', ' '] ++ attr ++ ['=', '"'] ++ fmt ++ ['"', '>'] ++ text ++ ['<', '/', 's', 'p', 'a', 'n', '>']

/-- One piece of the HTML, `out/html.py:117` and `153`. -/
def htmlPiece (attr text : List Char) : Option (List Char) → List Char
  | some (c :: cs) => htmlSpan attr (attrescape (c :: cs)) (escape text)
  | _ => escape text

/-- `html`, `out/html.py:96-119` and `129-155`, for the pieces yielded by `format_document`. A
    format is a string; an empty one counts as none. -/
def html (attr : List Char) (pieces : List (List Char × Option (List Char))) : List Char :=
  pieces.flatMap (fun q => htmlPiece attr q.1 q.2)

end Parce
