import Verif.Lemmas.LilyIndent
import Verif.Props.Block
/-!
# C127: indenting LilyPond
-/
set_option linter.unusedSectionVars false
namespace Parce.Ind
variable {α T G : Type} [DecidableEq α] [DecidableEq G]

/-- **C127**, the part that holds: when a text with LilyPond and languages without indenter is indented, where each line begins in LilyPond, then each line has the indent
    string as many times as its level says: the brackets that are open at its beginning, without the closing brackets that it begins with. Missing:
    lines that begin in another language, see `C127_scheme_violated`. -/
theorem C127_levels_partial (space : α → Bool) (sep : α) (c : Cfg α) (t : List α) (toks : Nat → List T) (lang : T → G) (lily : G) (delim : T → Bool)
    (text : T → List Char) (hb : ∀ n, BeginsWith lang lily (bracketOf lang lily delim text) (toks n)) (hs : sep ∉ c.indentString) :
    ∃ t', indentText space sep c (fun _ n _ => indentEvents lang (fun g => if g = lily then some (lilyEvents delim text) else none) (toks n)) t 0 none = some t' ∧
      linesOf sep t' = (linesOf sep t).mapIdx (fun n l =>
        times (tokenLevel (fun k => (toks k).map (bracketOf lang lily delim text)) n) c.indentString ++ body space l) := by
  obtain ⟨_, hline, hsep, _⟩ := C13_blocks_partition t sep
  have hE : ∀ n, ∃ m' e', (∀ st : List (List α), infoLoop (indentEvents lang (fun g => if g = lily then some (lilyEvents delim text) else none) (toks n)) true
        (Info.init : Info α) = lineInfo m' (closingFirst ((toks n).map (bracketOf lang lily delim text))) e') ∧
      levelBefore (fun k => ((toks k).map (bracketOf lang lily delim text)).filterMap id) (n + 1) =
        levelBefore (fun k => ((toks k).map (bracketOf lang lily delim text)).filterMap id) n - closingFirst ((toks n).map (bracketOf lang lily delim text)) - e' + m' := by
    intro n
    obtain ⟨m', e', h1, h2⟩ := early_tokens (α := α) (((toks n).filter (fun t => decide (lang t = lily))).map (bracketOf lang lily delim text)) 0
    rw [Nat.zero_add, first_lily _ _ _ _ (hb n)] at h1
    refine ⟨m', e', fun _ => by rw [lily_events, show (Info.init : Info α) = lineInfo 0 0 0 from rfl, h1], ?_⟩
    have := h2 (levelBefore (fun k => ((toks k).map (bracketOf lang lily delim text)).filterMap id) n)
    rw [Nat.zero_add, first_lily _ _ _ _ (hb n), brackets_lily, Nat.sub_zero] at this
    exact this
  obtain ⟨xs, h1, h2, h3, h4⟩ := loop_any (space := space) c
    (fun _ n _ => indentEvents lang (fun g => if g = lily then some (lilyEvents delim text) else none) (toks n)) t _ _ hE (blocks t sep) 0 0 0 rfl
  have hmem : ∀ x ∈ xs, x.1 ∈ blocks t sep := fun x hx => h1 ▸ List.mem_map_of_mem hx
  have hbody : ∀ l : List α, sep ∉ l → sep ∉ body space l := by
    intro l hl hm
    rw [body_eq] at hm
    exact hl (List.mem_of_mem_drop hm)
  have hlines := edited_lines (sep := sep) t xs h1 (by
    intro x hx q hq
    obtain ⟨a1, a2⟩ := h3 x hx q hq
    have hl := hline _ (hmem x hx)
    have := ownIndent_length (space := space) (slice t x.1.pos x.1.stop)
    rw [slice_length_line hl] at this
    have := hl.le
    omega) (by
    intro x hx hm
    obtain ⟨i, hi⟩ := List.getElem?_of_mem hx
    rw [h4 i x hi, List.mem_append] at hm
    rcases hm with hm | hm
    · exact hs (times_mem hm)
    · exact hbody _ (hsep _ (hmem x hx)) hm)
  refine ⟨edited t (xs.filterMap (·.2)), ?_, ?_⟩
  · unfold indentText indentEdits
    have h2' : indentLoop space c _ t 0 none (blocks t sep) 0 [] [[]] = some (xs.filterMap (·.2)) := h2
    rw [h2']; rfl
  · rw [hlines, ← blocks_texts]
    apply List.ext_getElem?
    intro i
    rw [← h1]
    simp only [List.getElem?_map, List.getElem?_mapIdx]
    cases hi : xs[i]? with
    | none => rfl
    | some x =>
      simp only [Option.map_some, Option.some.injEq]
      rw [h4 i x hi, Nat.zero_add]
      rfl

/-! ### Examples: a token is its language, 1 for LilyPond and 2 for Scheme, and its text; the separator of the lines is `/` -/

def lineTokens (ls : List (List (Nat × String))) (n : Nat) : List (Nat × String) := (ls[n]?).getD []

def ofLily (t : Nat × String) : Option Bool := bracketOf (·.1) 1 (fun _ => true) (fun t => t.2.toList) t

def indented (ls : List (List (Nat × String))) (t : String) : Option (List Char) :=
  indentText (· == ' ') '/' ⟨[' '], true⟩ (fun _ n _ => indentEvents (·.1) (fun g => if g = 1 then some (lilyEvents (fun _ => true) (fun t => t.2.toList)) else none)
    (lineTokens ls n)) t.toList 0 none

/-- The lines `a{<<`, `b>>`, `}c}`, `}{`. -/
def someLines : List (List (Nat × String)) := [[(1, "a"), (1, "{"), (1, "<<")], [(1, "b"), (1, ">>")], [(1, "}"), (1, "c"), (1, "}")], [(1, "}"), (1, "{")], [(1, "d")]]

example : (∀ n, BeginsWith (·.1) 1 ofLily (lineTokens someLines n)) ∧ '/' ∉ [' '] ∧
    (List.range 5).map (tokenLevel (fun k => (lineTokens someLines k).map ofLily)) = [0, 2, 0, 0, 1] ∧
    indented someLines "a{<</b>>/ }c}/}{/d" = some "a{<</  b>>/}c}/}{/ d".toList := by
  refine ⟨?_, by decide, by decide +kernel, by decide +kernel⟩
  intro n
  match n with
  | 0 => exact ⟨rfl, fun h => absurd h (by decide)⟩
  | 1 => exact ⟨rfl, fun h => absurd h (by decide)⟩
  | 2 => exact ⟨rfl, fun _ => ⟨rfl, fun h => absurd h (by decide)⟩⟩
  | 3 => exact ⟨rfl, fun _ => ⟨rfl, fun h => absurd h (by decide)⟩⟩
  | 4 => exact ⟨rfl, fun h => absurd h (by decide)⟩
  | n + 5 => exact trivial

/-- The lines `{#(f` and `2)}`, where `(`, `f`, `2` and `)` are Scheme. -/
def schemeLines : List (List (Nat × String)) := [[(1, "{"), (1, "#"), (2, "("), (2, "f")], [(2, "2"), (2, ")"), (1, "}")]]

/-- **C127** is violated: in a line that begins with Scheme, the closing bracket after it counts as if the line began with it. The line `2)}` is at level 1, but
    it is not indented. -/
theorem C127_scheme_violated : tokenLevel (fun k => (lineTokens schemeLines k).map ofLily) 1 = 1 ∧
    indented schemeLines "{#(f/2)}" = some "{#(f/2)}".toList := by decide +kernel

end Parce.Ind
