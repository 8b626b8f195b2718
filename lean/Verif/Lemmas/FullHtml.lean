import Verif.Spec.FullHtml
import Verif.Lemmas.Formatter

/-! Lemmas about reading HTML texts. -/

namespace Parce.FH

theorem items_text : ∀ (s r : List Char), '<' ∉ s → items .text [] (s ++ r) = s.map Item.char ++ items .text [] r
  | [], r, _ => rfl
  | c :: s, r, h => by
    have h1 : c ≠ '<' := fun hc => h (by simp [hc])
    have ih := items_text s r (fun hs => h (by simp [hs]))
    simp only [List.cons_append, items, h1, if_false, List.map_cons, ih]

theorem items_quoted : ∀ (s cur r : List Char), '"' ∉ s →
    items .quoted cur (s ++ '"' :: r) = items (.tag false) (cur ++ s ++ ['"']) r
  | [], cur, r, _ => by simp [items]
  | c :: s, cur, r, h => by
    have h1 : c ≠ '"' := fun hc => h (by simp [hc])
    have ih := items_quoted s (cur ++ [c]) r (fun hs => h (by simp [hs]))
    simp only [List.cons_append, items, h1, if_false, ih]
    simp

theorem textUpTo_chars : ∀ (s : List Char) (r : List Item), textUpTo (s.map Item.char ++ r) = s ++ textUpTo r
  | [], _ => rfl
  | c :: s, r => by simp [textUpTo, textUpTo_chars s r]

/-- The text of one piece. -/
theorem piece_text (attr : List Char) (ha : attr = "style".toList ∨ attr = "class".toList) (t : List Char)
    (f : Option (List Char)) (r : List Char) :
    textUpTo (items .text [] (htmlPiece attr t f ++ r)) = escape t ++ textUpTo (items .text [] r) := by
  have hp : ∀ r, textUpTo (items .text [] (escape t ++ r)) = escape t ++ textUpTo (items .text [] r) := by
    intro r
    rw [items_text _ _ (escape_no t).1, textUpTo_chars]
  match f with
  | none => exact hp r
  | some [] => exact hp r
  | some (c :: cs) =>
    have hq : '"' ∉ attrescape (c :: cs) := (attrescape_no (c :: cs)).2.2
    have hclose : ∀ r, items .text [] ("</span>".toList ++ r) = .tag "/span".toList :: items .text [] r := by
      intro r
      rw [show "</span>".toList = ['<', '/', 's', 'p', 'a', 'n', '>'] by decide,
        show "/span".toList = ['/', 's', 'p', 'a', 'n'] by decide]
      rfl
    have hopen : ∀ r, ∃ cur, cur ≠ ['/', 'p', 'r', 'e'] ∧
        items .text [] (['<', 's', 'p', 'a', 'n', ' '] ++ attr ++ ['=', '"'] ++ attrescape (c :: cs) ++ ['"', '>'] ++ r) =
          .tag cur :: items .text [] r := by
      intro r
      rcases ha with ha | ha
      · rw [show "style".toList = ['s', 't', 'y', 'l', 'e'] by decide] at ha
        subst ha
        refine ⟨"span style=\"".toList ++ attrescape (c :: cs) ++ ['"'], ?_, ?_⟩
        · rw [show "span style=\"".toList = ['s', 'p', 'a', 'n', ' ', 's', 't', 'y', 'l', 'e', '=', '"'] by decide]
          intro h; injection h with h _; revert h; decide
        · rw [show "span style=\"".toList = ['s', 'p', 'a', 'n', ' ', 's', 't', 'y', 'l', 'e', '=', '"'] by decide]
          have := items_quoted (attrescape (c :: cs)) ['s', 'p', 'a', 'n', ' ', 's', 't', 'y', 'l', 'e', '=', '"'] ('>' :: r) hq
          rw [show items .text [] (['<', 's', 'p', 'a', 'n', ' '] ++ ['s', 't', 'y', 'l', 'e'] ++ ['=', '"'] ++ attrescape (c :: cs) ++ ['"', '>'] ++ r) =
            items .quoted ['s', 'p', 'a', 'n', ' ', 's', 't', 'y', 'l', 'e', '=', '"'] (attrescape (c :: cs) ++ '"' :: '>' :: r) by
            simp [items]]
          rw [this]
          simp [items]
      · rw [show "class".toList = ['c', 'l', 'a', 's', 's'] by decide] at ha
        subst ha
        refine ⟨"span class=\"".toList ++ attrescape (c :: cs) ++ ['"'], ?_, ?_⟩
        · rw [show "span class=\"".toList = ['s', 'p', 'a', 'n', ' ', 'c', 'l', 'a', 's', 's', '=', '"'] by decide]
          intro h; injection h with h _; revert h; decide
        · rw [show "span class=\"".toList = ['s', 'p', 'a', 'n', ' ', 'c', 'l', 'a', 's', 's', '=', '"'] by decide]
          have := items_quoted (attrescape (c :: cs)) ['s', 'p', 'a', 'n', ' ', 'c', 'l', 'a', 's', 's', '=', '"'] ('>' :: r) hq
          rw [show items .text [] (['<', 's', 'p', 'a', 'n', ' '] ++ ['c', 'l', 'a', 's', 's'] ++ ['=', '"'] ++ attrescape (c :: cs) ++ ['"', '>'] ++ r) =
            items .quoted ['s', 'p', 'a', 'n', ' ', 'c', 'l', 'a', 's', 's', '=', '"'] (attrescape (c :: cs) ++ '"' :: '>' :: r) by
            simp [items]]
          rw [this]
          simp [items]
    simp only [htmlPiece, htmlSpan]
    obtain ⟨cur, hcur, h1⟩ := hopen (escape t ++ (['<', '/', 's', 'p', 'a', 'n', '>'] ++ r))
    rw [show ['<', 's', 'p', 'a', 'n', ' '] ++ attr ++ ['=', '"'] ++ attrescape (c :: cs) ++ ['"', '>'] ++ escape t ++
        ['<', '/', 's', 'p', 'a', 'n', '>'] ++ r =
      ['<', 's', 'p', 'a', 'n', ' '] ++ attr ++ ['=', '"'] ++ attrescape (c :: cs) ++ ['"', '>'] ++
        (escape t ++ (['<', '/', 's', 'p', 'a', 'n', '>'] ++ r)) by simp [List.append_assoc]]
    rw [h1]
    simp only [textUpTo, hcur, if_false]
    rw [hp, show items .text [] (['<', '/', 's', 'p', 'a', 'n', '>'] ++ r) =
      .tag ['/', 's', 'p', 'a', 'n'] :: items .text [] r by rfl]
    rfl

theorem part5_eq : part5 = ['<', '/', 'p', 'r', 'e', '>'] ++ "\n    </div>\n  </body>\n</html>\n".toList := by decide

theorem html_text (attr : List Char) (ha : attr = "style".toList ∨ attr = "class".toList) :
    ∀ (pieces : List (List Char × Option (List Char))),
      textUpTo (items .text [] (html attr pieces ++ part5)) = pieces.flatMap (fun q => escape q.1)
  | [] => by
    rw [part5_eq]
    generalize "\n    </div>\n  </body>\n</html>\n".toList = r
    rfl
  | (t, f) :: ps => by
    have ih := html_text attr ha ps
    have : html attr ((t, f) :: ps) ++ part5 = htmlPiece attr t f ++ (html attr ps ++ part5) := by
      simp [html]
    rw [this, piece_text attr ha, ih]
    rfl

theorem unescape_plain : ∀ (s r : List Char), '&' ∉ s → unescape (s ++ r) = s ++ unescape r
  | [], _, _ => rfl
  | c :: s, r, h => by
    have h1 : c ≠ '&' := fun hc => h (by simp [hc])
    rw [List.cons_append, unescape_cons h1, unescape_plain s r (fun hs => h (by simp [hs]))]
    rfl

theorem unescape_pieces : ∀ (pieces : List (List Char × Option (List Char))),
    unescape (pieces.flatMap (fun q => escape q.1)) = pieces.flatMap (·.1)
  | [] => rfl
  | q :: qs => by
    rw [List.flatMap_cons, unescape_escape_append, unescape_pieces qs]
    rfl

theorem escape_head (t : List Char) : escape ('\n' :: t) = '\n' :: escape t := by
  rw [escape_eq, escape_eq]; rfl

theorem dropNewline_cons {c : Char} (h : c ≠ '\n') (r : List Char) : dropNewline (c :: r) = c :: r := by
  unfold dropNewline
  split
  · rename_i hc; injection hc with hc _; exact absurd hc h
  · rfl

theorem esc1_head (c : Char) (h : c ≠ '\n') : ∃ d r, esc1 c = d :: r ∧ d ≠ '\n' := by
  unfold esc1
  split
  · exact ⟨_, _, rfl, by decide⟩
  · split
    · exact ⟨_, _, rfl, by decide⟩
    · split
      · exact ⟨_, _, rfl, by decide⟩
      · exact ⟨_, _, rfl, h⟩

/-- The newline that is left out is the first of the text. -/
theorem drop_pieces (pieces : List (List Char × Option (List Char))) :
    unescape (dropNewline (pieces.flatMap (fun q => escape q.1))) = dropNewline (pieces.flatMap (·.1)) := by
  have h1 : pieces.flatMap (fun q => escape q.1) = escape (pieces.flatMap (·.1)) := by
    induction pieces with
    | nil => rfl
    | cons q qs ih => rw [List.flatMap_cons, List.flatMap_cons, ih, escape_eq, escape_eq, escape_eq, List.flatMap_append]
  rw [h1]
  generalize pieces.flatMap (·.1) = t
  have hu : ∀ t, unescape (escape t) = t := fun t => by
    have := unescape_escape_append t []; simpa [unescape] using this
  cases t with
  | nil => rfl
  | cons c t =>
    by_cases hc : c = '\n'
    · subst hc
      rw [escape_head]
      exact hu t
    · rw [dropNewline_cons hc]
      obtain ⟨d, r, hd, hn⟩ := esc1_head c hc
      have : escape (c :: t) = d :: (r ++ escape t) := by
        rw [escape_eq, escape_eq, List.flatMap_cons, hd]; rfl
      rw [this, dropNewline_cons hn, ← this]
      exact hu _

theorem shown_full (charset : List Char) (hc : '"' ∉ charset) (base : Option (List Char))
    (hb : '"' ∉ base.getD []) (hb' : '&' ∉ base.getD []) (content : List Char) :
    shown (fullHtml charset base content) =
      some ("white-space: pre; ".toList ++ base.getD [], unescape (dropNewline (textUpTo (items .text [] (content ++ part5))))) := by
  unfold shown fullHtml
  generalize base.getD [] = b at hb hb'
  have h1 : ∀ r, preElement (items .text [] (part1 ++ r)) =
      preElement (items .quoted ['m', 'e', 't', 'a', ' ', 'c', 'h', 'a', 'r', 's', 'e', 't', '=', '"'] r) := by
    intro r
    rw [show part1 = ['<', '!', 'D', 'O', 'C', 'T', 'Y', 'P', 'E', ' ', 'h', 't', 'm', 'l', '>', '\n', '<', 'h', 't', 'm', 'l', '>', '\n',
      ' ', ' ', '<', 'h', 'e', 'a', 'd', '>', '\n', ' ', ' ', ' ', ' ', '<', 'm', 'e', 't', 'a', ' ', 'c', 'h', 'a', 'r', 's', 'e', 't', '=', '"'] by decide]
    rfl
  have h2 : ∀ cur r, preElement (items .quoted ('m' :: cur) (charset ++ part2 ++ r)) = preElement (items .text [] r) := by
    intro cur r
    rw [show part2 = '"' :: ['/', '>', '\n', ' ', ' ', '<', '/', 'h', 'e', 'a', 'd', '>', '\n', ' ', ' ', '<', 'b', 'o', 'd', 'y', '>', '\n',
      ' ', ' ', ' ', ' ', '<', 'd', 'i', 'v', ' ', 'c', 'l', 'a', 's', 's', '=', '"', 'p', 'a', 'r', 'c', 'e', '"', '>', '\n'] by decide]
    rw [List.append_assoc, List.cons_append, items_quoted _ _ _ hc]
    rfl
  have h3 : ∀ r, items .text [] (part3 ++ b ++ part4 ++ r) =
      .tag (['p', 'r', 'e', ' ', 's', 't', 'y', 'l', 'e', '=', '"'] ++ "white-space: pre; ".toList ++ b ++ ['"']) :: items .text [] r := by
    intro r
    rw [show part4 = ['"', '>'] by decide,
      show "white-space: pre; ".toList = ['w', 'h', 'i', 't', 'e', '-', 's', 'p', 'a', 'c', 'e', ':', ' ', 'p', 'r', 'e', ';', ' '] by decide,
      show part3 = ['<', 'p', 'r', 'e', ' ', 's', 't', 'y', 'l', 'e', '=', '"', 'w', 'h', 'i', 't', 'e', '-', 's', 'p', 'a', 'c', 'e', ':', ' ', 'p', 'r', 'e', ';', ' '] by decide]
    rw [List.append_assoc, List.append_assoc]
    rw [show ∀ r, items .text [] (['<', 'p', 'r', 'e', ' ', 's', 't', 'y', 'l', 'e', '=', '"', 'w', 'h', 'i', 't', 'e', '-', 's', 'p', 'a', 'c', 'e', ':', ' ', 'p', 'r', 'e', ';', ' '] ++ r) =
      items .quoted ['p', 'r', 'e', ' ', 's', 't', 'y', 'l', 'e', '=', '"', 'w', 'h', 'i', 't', 'e', '-', 's', 'p', 'a', 'c', 'e', ':', ' ', 'p', 'r', 'e', ';', ' '] r from fun _ => rfl]
    rw [show b ++ (['"', '>'] ++ r) = b ++ '"' :: '>' :: r by rfl, items_quoted _ _ _ hb]
    rfl
  have e : part1 ++ charset ++ part2 ++ part3 ++ b ++ part4 ++ content ++ part5 =
      part1 ++ (charset ++ part2 ++ (part3 ++ b ++ part4 ++ (content ++ part5))) := by simp [List.append_assoc]
  rw [e, h1, h2, h3]
  have h4 : preStyle (['p', 'r', 'e', ' ', 's', 't', 'y', 'l', 'e', '=', '"'] ++ "white-space: pre; ".toList ++ b ++ ['"']) =
      some ("white-space: pre; ".toList ++ b) := by
    have hq : '"' ∉ "white-space: pre; ".toList ++ b := by
      intro h
      rcases List.mem_append.1 h with h | h
      · revert h; decide
      · exact hb h
    have ha : '&' ∉ "white-space: pre; ".toList ++ b := by
      intro h
      rcases List.mem_append.1 h with h | h
      · revert h; decide
      · exact hb' h
    rw [show ['p', 'r', 'e', ' ', 's', 't', 'y', 'l', 'e', '=', '"'] ++ "white-space: pre; ".toList ++ b ++ ['"'] =
      ['p', 'r', 'e', ' ', 's', 't', 'y', 'l', 'e', '=', '"'] ++ (("white-space: pre; ".toList ++ b) ++ ['"']) by simp]
    generalize "white-space: pre; ".toList ++ b = s at hq ha
    have ht : (s ++ ['"']).takeWhile (· ≠ '"') = s := by
      rw [List.takeWhile_append_of_pos]
      · simp
      · intro c hc; simp; rintro rfl; exact hq hc
    show some (unescape ((s ++ ['"']).takeWhile (· ≠ '"'))) = some s
    rw [ht]
    have := unescape_plain s [] ha
    simpa [unescape] using this
  simp only [preElement, h4]

end Parce.FH
