import Verif.Lemmas.FormatRanges
/-!
# Properties C39 and C40: formatting and HTML
-/
namespace Parce
variable {α L A F G : Type}

/-- **C39** (partial: see `FmtOk`, `C39_violated_gap` and `C39_violated_languages`). The ranges
    follow each other within the window, no two could be merged, every character of a token has
    the format for the action of the token in the theme for its language, and no other; between
    tokens there is only the format for unparsed text or a base format. -/
theorem C39_format_ranges_partial [DecidableEq G] [DecidableEq F] (c : FCaches A F G) (langOf : L → G) (d : FCache A F)
    (hd : c.default = some d) (l : L) (cs : List (Node α L A)) (hf : FullL cs) (ho : Ordered (toksL cs)) (start : Nat)
    (stop : Option Nat) (hok : FmtOk c l cs start stop) :
    Asc start (formatRanges c langOf l cs start stop) ∧ Merged (formatRanges c langOf l cs start stop) ∧
    (∀ e, stop = some e → ∀ r ∈ formatRanges c langOf l cs start stop, r.stop ≤ e) ∧
    (∀ q ∈ homesL l cs, ∀ p, q.2.has p → inWindow start stop p → ∀ v,
      InRg (formatRanges c langOf l cs start stop) p v ↔ tokFormat d.unparsed (c.get d (langOf q.1)) q.2.act = some v) ∧
    (∀ p v, (∀ q ∈ homesL l cs, ¬ q.2.has p) → InRg (formatRanges c langOf l cs start stop) p v →
      d.unparsed = some v ∨ d.unparsed = none) ∧
    (∀ p u, d.unparsed = some u → inWindow start stop p → (∀ q ∈ homesL l cs, ¬ q.2.has p) → stop ≠ none →
      InRg (formatRanges c langOf l cs start stop) p u) := by
  obtain ⟨hse, r, h1, ts, last, h2, h3, h4, h5, h6⟩ := fmt_tokens c langOf d hd l cs hf ho start stop hok
  have hrs : formatRanges c langOf l cs start stop = mergeAdjacent (fixBoundaries start stop (streamOf d.unparsed last start stop ts)) := by
    unfold formatRanges
    rw [h1]
    simp only [fmtStream, hd, Option.getD_some, h2]
  obtain ⟨g1, g2, g3, g4, g5, g6, g7⟩ := stream_core start stop hse d.unparsed last ts h3 h4 _ hrs
  have hno : ∀ p, (∀ q ∈ homesL l cs, ¬ q.2.has p) → ∀ q ∈ ts, ¬ q.1.has p := by
    intro p h q hq
    obtain ⟨x, hx, rfl⟩ := h6 q hq
    exact h x hx
  refine ⟨g1, g2, g3, ?_, ?_, ?_⟩
  · intro q hq p hp hw v
    exact g4 (q.2, c.get d (langOf q.1)) (h5 q hq ⟨by have := hp.2; have := hw.1; omega, fun e he => by
      have := hp.1; have := hw.2 e he; omega⟩) p hp hw v
  · intro p v h hin
    rcases g6 p v (hno p h) hin with h | ⟨h, _⟩
    · exact Or.inl h
    · exact Or.inr h
  · intro p u hu hw h hs
    exact g7 p u hu hw (hno p h) (Or.inr hs)

/-- **C39** (partial, as above). The pieces of text yielded by `format_text` are, together, the
    requested part of the text: for one theme when the range touches a token or is not found,
    for the whole tree, and always when there is no default theme. -/
theorem C39_text_partial [DecidableEq G] [DecidableEq F] (c : FCaches A F G) (langOf : L → G) (text : List α)
    (l : L) (cs : List (Node α L A)) (hf : FullL cs) (ho : Ordered (toksL cs)) (start : Nat)
    (stop : Option Nat)
    (hok : c.default = none ∨ Rng.fromTree l cs start stop = none ∨ FmtOk c l cs start stop) :
    (formatText c langOf text l cs start stop).flatMap (·.1) =
      textWindow text start stop := by
  unfold formatText
  by_cases hse : ∃ e, stop = some e ∧ e ≤ start
  · obtain ⟨e, rfl, he⟩ := hse
    have : formatRanges c langOf l cs start (some e) = [] := by
      unfold formatRanges
      rw [C31_empty l cs hf ho start e he]
    rw [this]
    simp only [fmtTextLoop, Option.getD_some, textWindow]
    rw [if_neg (by omega)]
    simp [slice]
    omega
  · have hse' : ∀ e, stop = some e → start < e := by
      intro e he
      exact Nat.lt_of_not_le (fun h => hse ⟨e, he, h⟩)
    apply fmtTextLoop_text
    · rcases hok with h | h | h
      · unfold formatRanges
        split
        · trivial
        · next r hr =>
          have : fmtStream c langOf (Node.ctx l cs) r start stop = [] := by
            simp [fmtStream, h, FCache.none, fmtEvents, withFc, streamOf, streamB]
          rw [this]
          unfold fixBoundaries
          split <;> trivial
      · unfold formatRanges
        rw [h]
        trivial
      · cases hd : c.default with
        | some d => exact (C39_format_ranges_partial c langOf d hd l cs hf ho start stop h).1
        | none =>
          unfold formatRanges
          split
          · trivial
          · next r hr =>
            have : fmtStream c langOf (Node.ctx l cs) r start stop = [] := by
              simp [fmtStream, hd, FCache.none, fmtEvents, withFc, streamOf, streamB]
            rw [this]
            unfold fixBoundaries
            split <;> trivial
    · intro e he
      refine ⟨Nat.le_of_lt (hse' e he), ?_⟩
      have hnil : c.default = none → ∀ r ∈ formatRanges c langOf l cs start stop, r.stop ≤ e := by
        intro hd
        have : formatRanges c langOf l cs start stop = [] := by
          unfold formatRanges
          split
          · rfl
          · next r hr =>
            have : fmtStream c langOf (Node.ctx l cs) r start stop = [] := by
              simp [fmtStream, hd, FCache.none, fmtEvents, withFc, streamOf, streamB]
            rw [this]
            unfold fixBoundaries
            split <;> rfl
        rw [this]
        simp
      rcases hok with h | h | h
      · exact hnil h
      · unfold formatRanges
        rw [h]
        simp
      · cases hd : c.default with
        | some d => exact (C39_format_ranges_partial c langOf d hd l cs hf ho start stop h).2.2.1 e he
        | none => exact hnil hd

private def tk (pos : Nat) (s : String) (a : Nat) : Node Char Nat Nat := .tok ⟨pos, s.toList, a, none⟩

/-- One theme: action 1 has format 10, action 2 has none. -/
private def one : FCaches Nat Nat Nat := ⟨some ⟨none, none, fun a => if a = 1 then some 10 else none⟩, []⟩

/-- A second theme for language 5. -/
private def two : FCaches Nat Nat Nat :=
  ⟨some ⟨none, none, fun a => if a = 1 then some 10 else none⟩, [(5, ⟨none, none, fun _ => some 20⟩)]⟩

private def gap2 : List (Node Char Nat Nat) := [.ctx 1 [tk 0 "a" 1], .ctx 1 [tk 5 "b" 1]]

/-- **C39 is violated by the code** for a range in a gap between the tokens of two contexts: the
    pieces are not the requested text. -/
theorem C39_violated_gap : FullL gap2 ∧ Ordered (toksL gap2) ∧
    (formatText one id "a1234b".toList 0 gap2 2 (some 3)).flatMap (·.1) = "23412".toList := by
  refine ⟨by simp [FullL, gap2, Node.Full, tk], by simp [Ordered, toksL, gap2, Node.toks, tk, TokN.stop], ?_⟩
  decide

private def nested : List (Node Char Nat Nat) := [tk 0 "a" 1, tk 1 "b" 1, tk 2 "c" 1, .ctx 5 [tk 3 "d" 1], tk 4 "e" 1]

/-- **C39 is violated by the code** for a formatter with two themes and a part of the tree: after
    a context the loop goes on with the wrong children of its parent. -/
theorem C39_violated_languages : FullL nested ∧ Ordered (toksL nested) ∧
    (formatText two id "abcde".toList 0 nested 2 none).flatMap (·.1) = "cdcde".toList ∧
    (formatText one id "abcde".toList 0 nested 2 none).flatMap (·.1) = "cde".toList := by
  refine ⟨by simp [FullL, nested, Node.Full, tk], by simp [Ordered, toksL, nested, Node.toks, tk, TokN.stop], ?_⟩
  decide

example : FmtOk one 0 nested 1 (some 3) ∧ FmtOk two 0 nested 0 none ∧
    formatRanges two id 0 nested 0 none = [⟨0, 3, 10⟩, ⟨3, 4, 20⟩, ⟨4, 5, 10⟩] ∧
    formatText one id "abcde".toList 0 nested 1 (some 3) = [("bc".toList, some 10)] := by
  refine ⟨Or.inl ⟨rfl, by simp, ⟨1, "b".toList, 1, none⟩, by simp [nested, toksL, Node.toks, tk], ?_⟩, Or.inr ⟨by simp [nested], rfl, by simp⟩, ?_, ?_⟩
  · simp [TokN.touched, TokN.stop]
  · decide
  · decide

/-! ## C40 -/

/-- **C40.** Escaped text contains no `<` and no `>`, every `&` begins an entity, and unescaping
    gives the text back. -/
theorem C40_escape (t : List Char) :
    '<' ∉ escape t ∧ '>' ∉ escape t ∧ AmpOk ["&amp;".toList, "&lt;".toList, "&gt;".toList] (escape t) ∧
    unescape (escape t) = t := by
  refine ⟨(escape_no t).1, (escape_no t).2, ?_, ?_⟩
  · rw [escape_eq]
    exact ampOk_flatMap (fun c => esc1_ok c) t
  · have := unescape_escape_append t []
    simpa [unescape] using this

/-- **C40.** The same for attribute values, which contain no `"` either. -/
theorem C40_attrescape (t : List Char) :
    '<' ∉ attrescape t ∧ '>' ∉ attrescape t ∧ '"' ∉ attrescape t ∧
    AmpOk ["&amp;".toList, "&lt;".toList, "&gt;".toList, "&quot;".toList] (attrescape t) ∧
    unescape (attrescape t) = t := by
  refine ⟨(attrescape_no t).1, (attrescape_no t).2.1, (attrescape_no t).2.2, ?_, ?_⟩
  · rw [attrescape_eq]
    exact ampOk_flatMap (fun c => esc2_ok c) t
  · rw [attrescape_eq]
    induction t with
    | nil => rfl
    | cons c t ih => rw [List.flatMap_cons, unescape_esc2, ih]

/-- **C40.** Without the tags and unescaped, the HTML is the text of the pieces, whatever the
    formats are. -/
theorem C40_html (attr : List Char) (ha : '<' ∉ attr ∧ '>' ∉ attr) (pieces : List (List Char × Option (List Char))) :
    unescape (stripTags false (html attr pieces)) = pieces.flatMap (·.1) := by
  have key : stripTags false (html attr pieces) = pieces.flatMap (fun q => escape q.1) := by
    unfold html
    induction pieces with
    | nil => rfl
    | cons q qs ih =>
      obtain ⟨t, f⟩ := q
      rw [List.flatMap_cons, List.flatMap_cons]
      have hplain : stripTags false (escape t ++ qs.flatMap (fun q => htmlPiece attr q.1 q.2)) = escape t ++ qs.flatMap (fun q => escape q.1) := by
        rw [stripTags_false (escape_no t).1, ih]
      match f with
      | none => exact hplain
      | some [] => exact hplain
      | some (c :: cs) => exact strip_span attr ha _ (attrescape_no (c :: cs)).2.1 t _ _ ih
  rw [key]
  clear key
  induction pieces with
  | nil => rfl
  | cons q qs ih => rw [List.flatMap_cons, unescape_escape_append, ih]; rfl

/-- **C40.** Hence the HTML of a part of a document contains that part of the text. -/
theorem C40_document [DecidableEq G] (attr : List Char) (ha : '<' ∉ attr ∧ '>' ∉ attr) (c : FCaches A (List Char) G)
    (langOf : L → G) (text : List Char) (l : L) (cs : List (Node Char L A)) (hf : FullL cs) (ho : Ordered (toksL cs))
    (start : Nat) (stop : Option Nat)
    (hok : c.default = none ∨ Rng.fromTree l cs start stop = none ∨ FmtOk c l cs start stop) :
    unescape (stripTags false (html attr (formatText c langOf text l cs start stop))) = textWindow text start stop := by
  rw [C40_html attr ha, C39_text_partial c langOf text l cs hf ho start stop hok]

example : escape "a<b>&c".toList = "a&lt;b&gt;&amp;c".toList ∧ attrescape "x\"<".toList = "x&quot;&lt;".toList ∧
    html "style".toList [("a<".toList, some "b: \"".toList), ("&".toList, none)] =
      "<span style=\"b: &quot;\">a&lt;</span>&amp;".toList ∧ ('<' ∉ "style".toList ∧ '>' ∉ "style".toList) := by decide

end Parce
