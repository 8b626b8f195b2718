import Verif.Model.HtmlEncoding
import Verif.Spec.HtmlEncoding
import Verif.Lemmas.Html
/-!
# The encoding found in an HTML text
-/
namespace Parce.Html
open Parce.Json (Uni str)
open Parce.Xml (Ws IsWs PC shift chr)
open Parce.CssL (PBest PFail)
open Parce.FEnc (IsName NameChar nameSet)
variable {u : Uni}

theorem lower_eq (w : List Nat) : lowerText w = lower w := by
  unfold lowerText lower
  refine List.map_congr_left (fun c _ => ?_)
  unfold lowerChar
  simp only [Bool.and_eq_true, decide_eq_true_eq]

/-! ### The value of `content` -/

theorem fold_lower {c x : Nat} (h : lowerChar c = x) (hx : Low x) : foldc true c = x := by
  unfold lowerChar at h
  unfold Low at hx
  unfold foldc
  simp only [if_true]
  split at h
  · rw [if_pos (by assumption)]; exact h
  · rw [if_neg (by assumption), if_neg (by omega), if_neg (by omega)]; exact h

theorem folds_lower : ∀ (key v : List Nat), lower key = v → (∀ c ∈ v, Low c) → key.map (foldc true) = v
  | [], v, h, _ => by simpa [lower] using h
  | c :: key, v, h, hv => by
    subst h
    simp only [lower, List.map_cons, List.mem_cons, forall_eq_or_imp] at hv ⊢
    rw [fold_lower rfl hv.1, folds_lower key (lower key) rfl hv.2]
    rfl

theorem lower_fold {c x : Nat} (h : foldc true c = x) (hx : x ≠ 107) (hc : c ≠ 0x17F) : lowerChar c = x := by
  unfold foldc at h
  unfold lowerChar
  simp only [if_true] at h
  split at h
  · rw [if_pos (by assumption)]; exact h
  · rw [if_neg (by assumption)]
    split at h
    · omega
    · first | exact h | (split at h; · omega; · exact h)

theorem prefix_lower : ∀ (v rest : List Nat), 107 ∉ v → (∀ c ∈ rest, c ≠ 0x17F) → v <+: rest.map (foldc true) → v <+: lower rest
  | [], _, _, _, _ => List.nil_prefix
  | x :: v, [], _, _, h => by simp at h
  | x :: v, c :: rest, h1, h2, h => by
    simp only [List.map_cons, List.cons_prefix_cons] at h
    simp only [lower, List.map_cons, List.cons_prefix_cons]
    simp only [List.mem_cons, not_or] at h1
    exact ⟨(lower_fold h.1.symm (fun e => h1.1 e.symm) (h2 c (by simp))).symm, prefix_lower v rest h1.2 (fun d hd => h2 d (by simp [hd])) h.2⟩

theorem charset_low : ∀ c ∈ str "charset", Low c := by unfold Low; decide

theorem fails_content {v : List Nat} {i : Nat} (h : ¬ str "charset" <+: lower (v.drop i)) (hv : ∀ c ∈ v, c ≠ 0x17F) : Fails v (contentPat u) i := by
  rintro q ⟨r, ⟨rfl, _⟩, s, h2, _⟩
  refine h (prefix_lower _ _ (by decide) (fun c hc => hv c ((List.drop_suffix _ _).subset hc)) ?_)
  exact (lword_mat _ charset_low h2).2

theorem ws_not_name (hu : u.Ascii) {c : Nat} (h : IsWs c) : ¬ NameChar u c := by
  unfold IsWs at h
  rintro (h1 | h1)
  · rw [hu.word c (by omega)] at h1
    rcases h with rfl | rfl | rfl | rfl <;> simp at h1
  · omega

theorem pc_spaces (hu : u.Ascii) {g : Pat Nat} {b w post : List Nat} {k : Caps} (hb : Ws b) (hg : PC g w post k)
    (hf : ∀ rest : List Nat, (∀ c, rest.head? = some c → IsWs c) → PFail g rest) :
    PC (.cat (.lazy (.set u.space)) g) (b ++ w) post (shift b.length k) :=
  Xml.pc_lazy hg b (fun c hc => Xml.isWs_space hu (hb c hc)) (fun i hi => hf _ (fun c hc => hb c (FEnc.drop_head_mem hi hc)))

theorem pc_content (hu : u.Ascii) {key a b w post : List Nat} (hk : lower key = str "charset") (ha : Ws a) (hb : Ws b) (hw : IsName u w)
    (hp : ∀ c, post.head? = some c → ¬ NameChar u c) :
    PC (.cat (word true (str "charset")) (.cat (.lazy (.set u.space)) (.cat (chr "=") (.cat (.lazy (.set u.space))
      (.grp 1 (.plus (.set (nameSet u)))))))) (key ++ (a ++ (str "=" ++ (b ++ w)))) post
      [(1, key.length + a.length + 1 + b.length, key.length + a.length + 1 + b.length + w.length)] := by
  have h1 := pc_spaces hu hb (FEnc.pc_name hu hw hp) (fun rest h => FEnc.pfail_name hu (fun c hc => ws_not_name hu (h c hc)))
  have h2 := Xml.PC.cat (PC.of (Xml.pbest_chr "=" ((b ++ w) ++ post))) h1
  have h3 := pc_spaces hu ha h2 (fun rest h => CssL.pfail_cat (CssL.pfail_chr (fun he => by
    have := h _ he
    revert this
    unfold IsWs
    decide)))
  have h4 := Xml.PC.cat (PC.of (pbest_lword (str "charset") charset_low key ((a ++ (str "=" ++ (b ++ w))) ++ post) (folds_lower _ _ hk charset_low))) h3
  refine h4.eq rfl ?_
  have e : (str "=").length = 1 := rfl
  simp [shift, e]
  omega

theorem content_told (hu : u.Ascii) {v w : List Nat} (h : ContentTells u v w) : contentEncoding u v = some w := by
  obtain ⟨pre, key, a, b, post, e, hk, ha, hb, hw, hp, hl, hn, hv⟩ := h
  have hd : v.drop pre.length = key ++ (a ++ (str "=" ++ (b ++ (w ++ post)))) := by rw [e]; exact List.drop_left ..
  obtain ⟨c, key', rfl⟩ : ∃ c r, key = c :: r := by
    cases key with
    | nil => cases hk
    | cons c r => exact ⟨c, r, rfl⟩
  have hc : u.word c = true := by
    have h1 : lowerChar c = 99 := by
      have := congrArg List.head? hk
      simpa [lower, str] using this
    have : c = 67 ∨ c = 99 := by
      unfold lowerChar at h1
      split at h1 <;> omega
    rcases this with rfl | rfl
    · rw [hu.word 67 (by decide)]; rfl
    · rw [hu.word 99 (by decide)]; rfl
  have h1 : Best v (.bound u.word) pre.length pre.length := by
    refine Json.bound_left (u := u) (c := c) (fun h0 y hy => hl y ?_) (drop_get (by rw [hd]; rfl)) hc
    rw [List.getLast?_eq_getElem?, ← hy, e, List.getElem?_append_left (by omega)]
  have h2 := h1.toC.cat (pc_content hu hk ha hb hw hp v pre.length (by rw [hd]; simp))
  have h3 := FEnc.search_one (a := contentPat u) (q := pre.length) (g := [(1, (c :: key').length + a.length + 1 + b.length, (c :: key').length + a.length + 1 + b.length + w.length)])
    (by rw [e]; simp) (by rw [List.append_nil] at h2; exact h2) (fun i hi => fails_content (hn i hi) hv)
  unfold contentEncoding
  rw [h3]
  simp only [List.find?_cons, beq_self_eq_true]
  have e1 : (str "=").length = 1 := rfl
  have e2 : v = (pre ++ (c :: key') ++ a ++ str "=" ++ b) ++ w ++ post := by rw [e]; simp
  rw [e2, Xml.slice_mid _ w post (by simp [e1]; omega) (by simp [e1]; omega)]

theorem content_silent {v : List Nat} (h : ContentSilent v) : contentEncoding u v = none := by
  unfold contentEncoding
  rw [FEnc.search_none (fun i _ => fails_content (u := u) (fun hp => h.1 ?_) h.2)]
  have : lower (v.drop i) <:+ lower v := (List.drop_suffix i v).map _
  exact hp.isInfix.trans this.isInfix

/-! ### White space around the type -/

theorem lower_ws {w : List Nat} (h : Ws w) : lower w = w := by
  have : ∀ c ∈ w, lowerChar c = c := by
    intro c hc
    have := h c hc
    unfold IsWs at this
    unfold lowerChar
    rw [if_neg (by omega)]
  unfold lower
  rw [List.map_congr_left this, List.map_id']

theorem drop_ws (hu : u.Ascii) {a rest : List Nat} (h : Ws a) : (a ++ rest).dropWhile u.space = rest.dropWhile u.space := by
  induction a with
  | nil => rfl
  | cons c a ih =>
    rw [List.cons_append, List.dropWhile_cons, if_pos (Xml.isWs_space hu (h c (by simp)))]
    exact ih (fun d hd => h d (by simp [hd]))

theorem strip_type (hu : u.Ascii) {v : List Nat} (h : IsType v) : stripText u (lowerText v) = str "content-type" := by
  obtain ⟨a, k, b, rfl, ha, hb, hk⟩ := h
  rw [lower_eq]
  have e : lower (a ++ k ++ b) = a ++ (str "content-type" ++ b) := by
    rw [← hk]
    unfold lower at *
    rw [List.map_append, List.map_append]
    have h1 := lower_ws ha
    have h2 := lower_ws hb
    unfold lower at h1 h2
    rw [h1, h2]
    simp
  have s1 : u.space 99 = false := by rw [hu.space 99 (by decide)]; rfl
  have s2 : u.space 101 = false := by rw [hu.space 101 (by decide)]; rfl
  unfold stripText
  rw [e, drop_ws hu ha]
  have e1 : (str "content-type" ++ b).dropWhile u.space = str "content-type" ++ b := by
    show (99 :: _).dropWhile u.space = _
    rw [List.dropWhile_cons, if_neg (by simp [s1])]
    rfl
  rw [e1, List.reverse_append, drop_ws hu (fun c hc => hb c (List.mem_reverse.1 hc))]
  have e2 : (str "content-type").reverse = 101 :: str "pyt-tnetnoc" := by decide
  rw [e2, List.dropWhile_cons, if_neg (by simp [s2])]
  decide

theorem strip_infix (u : Uni) (v : List Nat) : stripText u v <:+: v := by
  unfold stripText
  have h1 : ((v.dropWhile u.space).reverse.dropWhile u.space).reverse <+: v.dropWhile u.space := by
    have := List.dropWhile_suffix (l := (v.dropWhile u.space).reverse) u.space
    have := List.reverse_prefix.2 this
    simpa using this
  exact h1.isInfix.trans (List.dropWhile_suffix _).isInfix

/-! ### The loop over the attributes -/

def isT (u : Uni) (a : MAttr) : Bool := lower a.name = str "http-equiv" && stripText u (lowerText a.value) = str "content-type"

def aLoop (u : Uni) : List MAttr → Bool → Option (List Nat) → Option (List Nat)
  | [], http, enc => if http then enc else none
  | a :: as, http, enc =>
    if lower a.name = str "charset" ∧ a.value ≠ [] then some a.value
    else if lower a.name = str "http-equiv" ∧ stripText u (lowerText a.value) = str "content-type" then aLoop u as true enc
    else if lower a.name = str "content" then
      match contentEncoding u a.value with
      | some w => aLoop u as http (some w)
      | none => aLoop u as http enc
    else aLoop u as http enc

theorem reads_loop {ns : List HNode} {as : List MAttr} (h : Reads ns as) : ∀ http enc, metaLoop u ns http enc = aLoop u as http enc := by
  induction h with
  | stop d hd =>
    intro http enc
    have : ¬ d.act = .x .attribute := by rw [hd]; decide
    simp [metaLoop, aLoop, this]
  | @attr n e q v z ns as h1 h2 h3 h4 _ ih =>
    intro http enc
    have n2 : ¬ e.act = .x .attribute := by rw [h2]; decide
    have n3 : ¬ q.act = .x .attribute := by rw [h3]; decide
    have hv : ((List.filterMap dqFirst (.tok e :: .tok q :: .ctx (.xml .dqstring) [.tok v, .tok z] :: ns)).head?).getD [] = v.text := rfl
    have hr : ∀ http enc, metaLoop u (.tok e :: .tok q :: .ctx (.xml .dqstring) [.tok v, .tok z] :: ns) http enc = aLoop u as http enc := by
      intro http enc
      simp only [metaLoop, n2, n3, if_false]
      exact ih http enc
    rw [metaLoop, if_pos h1]
    simp only [hv, lower_eq, hr, aLoop]
    rfl

theorem reads_metas {ns : List HNode} {as : List MAttr} (h : Reads ns as) : metas ns = [] ∧ ns ≠ [] := by
  induction h with
  | stop d hd => exact ⟨by simp [metas, metasOf, metaHere], by simp⟩
  | attr _ _ _ _ _ ih => exact ⟨by simp [metas, metasOf, metaHere, ih.1], by simp⟩

theorem metas_read {ns : List HNode} {ms : List (List MAttr)} (h : MetaNodes ns ms) :
    (metas ns).map (fun cs => metaLoop u cs false none) = ms.map (fun as => aLoop u as false none) := by
  induction h with
  | nil => rfl
  | @found t cs ns as ms h1 h2 h3 _ ih =>
    obtain ⟨h4, h5⟩ := reads_metas h3
    obtain ⟨c, cs, rfl⟩ := List.exists_cons_of_ne_nil h5
    have e : metas (.tok t :: .ctx (.attrs .none) (c :: cs) :: ns) = (c :: cs) :: metas ns := by
      rw [metas, metasOf, metaHere, if_pos ⟨h1, h2⟩, metas, metasOf, h4]
      rfl
    rw [e, List.map_cons, List.map_cons, ih, reads_loop h3]
  | bare _ ih => rw [← ih, metas]; simp [metasOf, metaHere]
  | @tok t ns ms h1 _ ih =>
    rw [← ih, metas, metasOf]
    have : metaHere t ns = [] := by
      unfold metaHere
      split
      · rw [if_neg h1]
      · rfl
    rw [this]; rfl
  | ctx _ _ ih1 ih2 => rw [metas, metasOf, List.map_append, List.map_append, ih1, ih2]

/-- The last encoding in `content`. -/
def lastEnc (u : Uni) : List MAttr → Option (List Nat) → Option (List Nat)
  | [], enc => enc
  | a :: as, enc => lastEnc u as (if lower a.name = str "content" then (match contentEncoding u a.value with | some w => some w | none => enc) else enc)

theorem loop_plain : ∀ (as : List MAttr), (∀ b ∈ as, lower b.name ≠ str "charset") → ∀ http enc,
    aLoop u as http enc = if http || as.any (isT u) then lastEnc u as enc else none
  | [], _, http, enc => by simp [aLoop, lastEnc]
  | a :: as, h, http, enc => by
    have h1 := h a (by simp)
    have ih := loop_plain as (fun b hb => h b (by simp [hb]))
    have hne : str "http-equiv" ≠ str "content" := by decide
    rw [aLoop, lastEnc, if_neg (fun hh => h1 hh.1), show (a :: as).any (isT u) = (isT u a || as.any (isT u)) from rfl]
    by_cases ht : lower a.name = str "http-equiv" ∧ stripText u (lowerText a.value) = str "content-type"
    · have hn : ¬ lower a.name = str "content" := by rw [ht.1]; exact hne
      have hi : isT u a = true := by simp [isT, ht.1, ht.2]
      rw [if_pos ht, if_neg hn, ih, hi]
      simp
    · have hi : isT u a = false := by
        simp only [isT, Bool.and_eq_false_iff, decide_eq_false_iff_not]
        by_cases h2 : lower a.name = str "http-equiv"
        · exact .inr (fun h3 => ht ⟨h2, h3⟩)
        · exact .inl h2
      rw [if_neg ht, hi, Bool.false_or]
      by_cases hn : lower a.name = str "content"
      · rw [if_pos hn, if_pos hn]
        cases contentEncoding u a.value <;> exact ih _ _
      · rw [if_neg hn, if_neg hn]
        exact ih _ _

theorem last_other : ∀ (as rest : List MAttr) (enc : Option (List Nat)), (∀ b ∈ as, lower b.name ≠ str "content") → lastEnc u (as ++ rest) enc = lastEnc u rest enc
  | [], _, _, _ => rfl
  | a :: as, rest, enc, h => by
    rw [List.cons_append, lastEnc, if_neg (h a (by simp))]
    exact last_other as rest enc (fun b hb => h b (by simp [hb]))

theorem last_silent : ∀ (as : List MAttr), (∀ b ∈ as, lower b.name = str "content" → ContentSilent b.value) → lastEnc u as none = none
  | [], _ => rfl
  | a :: as, h => by
    rw [lastEnc]
    have : (if lower a.name = str "content" then (match contentEncoding u a.value with | some w => some w | none => none) else none) = (none : Option (List Nat)) := by
      split
      · rw [content_silent (h a (by simp) (by assumption))]
      · rfl
    rw [this]
    exact last_silent as (fun b hb => h b (by simp [hb]))

theorem loop_charset {w n : List Nat} (hn : lower n = str "charset") (hw : w ≠ []) (l2 : List MAttr) : ∀ (l1 : List MAttr), (∀ b ∈ l1, lower b.name ≠ str "charset") →
    ∀ http enc, aLoop u (l1 ++ ⟨n, w⟩ :: l2) http enc = some w
  | [], _, http, enc => by simp [aLoop, hn, hw]
  | a :: l1, h, http, enc => by
    have ih := loop_charset hn hw l2 l1 (fun b hb => h b (by simp [hb]))
    simp only [List.cons_append, aLoop, h a (by simp), false_and, if_false, ih]
    split
    · rfl
    · split
      · split <;> rfl
      · rfl

theorem declares_loop (hu : u.Ascii) {as : List MAttr} {w : List Nat} (h : Declares u as w) : aLoop u as false none = some w := by
  rcases h with ⟨l1, l2, n, rfl, hn, hw, h1⟩ | ⟨h1, ⟨b, hb, hb1, hb2⟩, l1, l2, n, v, rfl, hn, hv, hl⟩
  · exact loop_charset hn hw l2 l1 h1 _ _
  · rw [loop_plain _ h1]
    have ht : (l1 ++ (⟨n, v⟩ : MAttr) :: l2).any (isT u) = true := by
      rw [List.any_eq_true]
      exact ⟨b, hb, by simp [isT, hb1, strip_type hu hb2]⟩
    rw [ht, last_other l1 _ _ (fun b hb => hl b (by simp [hb]))]
    simp only [lastEnc, hn, if_true, content_told hu hv, Bool.or_true]
    have := last_other (u := u) l2 [] (some w) (fun b hb => hl b (by simp [hb]))
    rw [List.append_nil] at this
    rw [this]
    rfl

theorem silent_loop {as : List MAttr} (h : Silent as) : aLoop u as false none = none := by
  rw [loop_plain _ h.1]
  rcases h.2 with h2 | h2
  · have ht : as.any (isT u) = false := by
      rw [List.any_eq_false]
      intro b hb
      simp only [isT, Bool.and_eq_true, decide_eq_true_eq]
      rintro ⟨h3, h4⟩
      refine h2 b hb h3 ?_
      rw [← h4, ← lower_eq]
      exact strip_infix u _
    rw [ht]
    rfl
  · rw [last_silent as h2]
    split <;> rfl

theorem found_of (tree : HNode) (other : Option (List Nat)) : findEncoding u tree other =
    match ((metas [tree]).map (fun cs => metaLoop u cs false none)).findSome? id with | some w => some w | none => other := by
  unfold findEncoding
  rw [List.findSome?_map]
  rfl

end Parce.Html
