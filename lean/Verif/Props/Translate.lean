import Verif.Lemmas.Translate
import Verif.Props.Replace
/-!
# C78: translating keys in a document
-/
namespace Parce
open Rx

private theorem upTo_eq {β : Type} (count : Int) (l : List β) : upTo count l = firstOf (maxCount count) l := by
  unfold upTo firstOf maxCount
  by_cases hc : 0 < count <;> simp [hc]

/-- **C78** (partial: there are keys, and none is empty; a negative start is only allowed if it is within
    the text and the region does not reach the end of the text; and with `whole`, the region does not
    begin or end beside a word character). `translate` raises nothing; from left to right, the longest
    key is replaced by its value; the rest stays as it is. -/
theorem C78_translate_partial [TupleOrder] (isWord : Char → Bool) (d : Doc Char) (t : List Char) (hd : d.ms = ⟨t, 0, []⟩)
    (mapping : List (List Char × List Char)) (hm : mapping ≠ []) (hk : [] ∉ mapping.map Prod.fst) (p : Pat Char)
    (hp : Reads .alt (words2regexp (mapping.map Prod.fst)) p) (start : Int) (stop : Option Int) (count : Int) (whole : Bool)
    (a b : Nat) (hr : RegionOK t.length start stop a b) (hw : whole = true → CleanEdges isWord t a b) :
    ∃ z, Translated mapping (KeyAt isWord mapping t b whole) t b (maxCount count) a z ∧
      (d.translate isWord mapping p start stop count whole).error = none ∧
      (d.translate isWord mapping p start stop count whole).doc.ms = ⟨t.take a ++ z ++ t.drop b, 0, []⟩ := by
  obtain ⟨h1, h2, h3⟩ := region_eq hr.1
  have hlen : (slice t a b).length = b - a := by rw [slice_length, Nat.min_eq_left h3]
  have hfinds := finds_keys isWord hm hp h2 h3 whole hw
  generalize hA : (if whole then wholePat isWord p else p) = A at hfinds
  have hall := findIter_all A (slice t a b) (2 * (slice t a b).length + 2) 0 false (Nat.zero_le _) (by simp)
  generalize hms : findIter A (slice t a b) (2 * (slice t a b).length + 2) 0 false = ms at hall
  obtain ⟨h4, h5⟩ := found_translated h2 h3 (mapping := mapping) hfinds (fun i w ⟨g1, _, g3, _⟩ => ⟨g1, fun h => hk (h ▸ g1), g3⟩) hall rfl
    (Nat.zero_le _) (maxCount count)
  have hch := hall.upTo count (valueOf mapping (slice t a b))
  have := region_block d t hd hr _ (by rw [← hlen]; exact hch) (translateOps d.ms.text mapping A start stop count) (by
    simp only [translateOps, hd, h1, hms, List.map_map]
    apply List.map_congr_left
    intro m hmem
    have hm' : m ∈ ms := by
      unfold upTo at hmem
      split at hmem
      · exact List.mem_of_mem_take hmem
      · exact hmem
    obtain ⟨v, hv⟩ := h4 m hm'
    simp only [hv, Function.comp, valueOf, Option.getD_some])
  refine ⟨_, h5, ?_, ?_⟩
  · unfold Doc.translate
    rw [hA]
    exact this.2
  · unfold Doc.translate
    rw [hA, this.1, ← upTo_eq]
    rfl

/-- The specification allows one result only. -/
theorem C78_translated_unique (isWord : Char → Bool) {mapping : List (List Char × List Char)} {t : List Char} {a b : Nat} {whole : Bool}
    {n : Option Nat} {x y : List Char} (h1 : Translated mapping (KeyAt isWord mapping t b whole) t b n a x)
    (h2 : Translated mapping (KeyAt isWord mapping t b whole) t b n a y) : x = y :=
  h1.unique (fun _ _ h => h.2.1) h2

/-- **C78.** All replacements are undone in one step. -/
theorem C78_undo (isWord : Char → Bool) (d : Doc Char) (t : List Char) (hd : d.ms = ⟨t, 0, []⟩) (hen : d.enabled = true)
    (mapping : List (List Char × List Char)) (p : Pat Char) (start : Int) (stop : Option Int) (count : Int) (whole : Bool)
    (he : (d.translate isWord mapping p start stop count whole).error = none)
    (hc : (d.translate isWord mapping p start stop count whole).doc.ms.text ≠ t) :
    (d.translate isWord mapping p start stop count whole).doc.doUndo.doc.ms = ⟨t, 0, []⟩ := by
  refine undo_block d t hd hen _ ?_ he hc
  simp only [translateOps]
  generalize upTo count _ = l
  induction l with
  | nil => rfl
  | cons m l ih =>
    simp only [List.map_cons]
    split <;> exact ih

/-- Without keys, the expression is empty and matches everywhere; the empty text is not a key, and
    `translate({})` raises a KeyError. -/
theorem C78_nokeys_violated [TupleOrder] (p : Pat Char) (hp : Reads .alt (words2regexp []) p) :
    ((Doc.new "ab".toList).translate (fun _ => true) [] p).error = some .user ∧
    ((Doc.new "ab".toList).translate (fun _ => true) [] p).doc.ms.text = "ab".toList := by
  have h : words2regexp ([] : List Word) = [] := by
    have h1 : words2regexp ([] : List Word) = join (groupAlts [] ((TupleOrder.ord []).map Prod.snd)) ++ [] ++ [] := by rfl
    rw [h1, (TupleOrder.perm []).eq_nil]
    simp [groupAlts, join, sortWords]
  rw [h] at hp
  rw [reads_unique hp (.single _ _ .nil)]
  exact ⟨by decide, by decide⟩

/-- The edges of words are those in the region, not those in the document: the key `a` is found in `ba`
    as a whole word, if the region starts in the middle. -/
theorem C78_whole_violated [TupleOrder] (p : Pat Char) (hp : Reads .alt (words2regexp ["a".toList]) p) :
    ((Doc.new "ba".toList).translate Char.isAlpha [("a".toList, "X".toList)] p 1 none 0 true).doc.ms.text = "bX".toList ∧
    ¬ WordEdge Char.isAlpha "ba".toList 1 := by
  have h : words2regexp ["a".toList] = ['a'] := by rfl
  rw [h] at hp
  rw [reads_unique hp (.single _ _ (.cons ['a'] [] _ _ (.once _ _ (.lit 'a' (by decide))) .nil))]
  refine ⟨by decide +kernel, ?_⟩
  rw [← atEdge_iff]
  decide

/-- A negative start: what is replaced at the end of the text is not removed. -/
theorem C78_negative_violated [TupleOrder] (p : Pat Char) (hp : Reads .alt (words2regexp ["a".toList]) p) :
    ((Doc.new "ba".toList).translate Char.isAlpha [("a".toList, "X".toList)] p (-1)).doc.ms.text = "bXa".toList := by
  have h : words2regexp ["a".toList] = ['a'] := by rfl
  rw [h] at hp
  rw [reads_unique hp (.single _ _ (.cons ['a'] [] _ _ (.once _ _ (.lit 'a' (by decide))) .nil))]
  decide +kernel

/-- The hypotheses are met, also with whole words in a region. -/
example [TupleOrder] : ∃ p, Reads .alt (words2regexp (["one".toList, "oneself".toList])) p ∧
    RegionOK "a one, oneself".toList.length 2 none 2 14 ∧ CleanEdges Char.isAlpha "a one, oneself".toList 2 14 := by
  obtain ⟨p, hp⟩ := C77_reads ["one".toList, "oneself".toList] (by simp)
  refine ⟨p, hp, ⟨rfl, Or.inl (by decide)⟩, ?_, ?_⟩
  · intro i c h1 h2
    have : i = 1 := by omega
    subst this
    simp at h2
    subst h2
    decide
  · intro c h; simp at h

/-- What `translate` makes of `onex` with the keys `one` and `on`: the longest key is replaced; if whole
    words are wanted nothing is. -/
example : Translated [("on".toList, "2".toList), ("one".toList, "1".toList)]
    (KeyAt Char.isAlpha [("on".toList, "2".toList), ("one".toList, "1".toList)] "onex".toList 4 false) "onex".toList 4 none 0
    "1x".toList := by
  refine Translated.next (i := 0) (w := "one".toList) (v := "1".toList) (z := "x".toList) (by simp) (by simp) (by intro j u _ h; omega)
    ⟨by simp, ⟨['x'], rfl⟩, by simp, by simp⟩ ?_ (by decide) ?_
  · rintro u ⟨h, _⟩
    simp at h
    rcases h with rfl | rfl <;> decide
  · refine .nothing (p := 3) ?_
    rintro i w hi ⟨h, _, h3, _⟩
    simp at h
    rcases h with rfl | rfl <;> simp at h3 hi <;> omega

end Parce
