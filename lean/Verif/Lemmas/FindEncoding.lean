import Verif.Model.FindEncoding
import Verif.Spec.FindEncoding
import Verif.Lemmas.XmlPat
import Verif.Props.Re
/-!
# What the expressions for the encoding take
-/
namespace Parce.FEnc
open Parce.Json (Uni)
open Parce.DocIO (str)
open Parce.CssL (PBest PFail)
open Parce.Xml (PC shift)
variable {u : Uni}

/-! ### The same matches -/

theorem run_dist (a b g : Pat Nat) (t : List Nat) (p : Nat) (c : Caps) :
    (Pat.cat (.alt a b) g).run t p c = (Pat.alt (.cat a g) (.cat b g)).run t p c := by
  simp only [Pat.run, List.flatMap_append]

theorem run_assoc (a b g : Pat Nat) (t : List Nat) (p : Nat) (c : Caps) :
    (Pat.cat (.cat a b) g).run t p c = (Pat.cat a (.cat b g)).run t p c := by
  simp only [Pat.run, List.flatMap_assoc]

theorem PC.same {a b : Pat Nat} {w post : List Nat} {g : Caps} (h : ∀ t p c, a.run t p c = b.run t p c) (hb : PC b w post g) : PC a w post g := by
  intro t p ht c
  rw [h]
  exact hb t p ht c

theorem PC.alt {a b : Pat Nat} {w post : List Nat} {g : Caps} (h : PC a w post g) : PC (.alt a b) w post g := by
  intro t p ht c
  obtain ⟨x, hx⟩ := h t p ht c
  exact ⟨x ++ b.run t p c, by simp only [Pat.run, hx, List.cons_append]⟩

theorem PC.alt' {a b : Pat Nat} {w post : List Nat} {g : Caps} (h1 : PFail a (w ++ post)) (h : PC b w post g) : PC (.alt a b) w post g := by
  intro t p ht c
  obtain ⟨x, hx⟩ := h t p ht c
  exact ⟨x, by simp only [Pat.run, (h1 t p ht).run, hx, List.nil_append]⟩

/-! ### The name -/

def nameSet (u : Uni) : Nat → Bool := fun c => u.word c || c == 95 || c == 45

theorem nameSet_iff (hu : u.Ascii) {c : Nat} : nameSet u c = true ↔ NameChar u c := by
  unfold nameSet NameChar
  simp only [Bool.or_eq_true, beq_iff_eq]
  constructor
  · rintro ((h | h) | h)
    · exact Or.inl h
    · subst h; left; rw [hu.word 95 (by omega)]; rfl
    · exact Or.inr h
  · rintro (h | h)
    · exact Or.inl (Or.inl h)
    · exact Or.inr h

theorem pc_name (hu : u.Ascii) {w post : List Nat} (hw : IsName u w) (hp : ∀ c, post.head? = some c → ¬ NameChar u c) :
    PC (.grp 1 (.plus (.set (nameSet u)))) w post [(1, 0, w.length)] := by
  refine PC.grp 1 (CssL.pbest_plus hw.1 (fun c hc => (nameSet_iff hu).2 (hw.2 c hc)) (fun c hc => ?_))
  cases h : nameSet u c with
  | false => rfl
  | true => exact absurd ((nameSet_iff hu).1 h) (hp c hc)

theorem pfail_name (hu : u.Ascii) {rest : List Nat} (h : ∀ c, rest.head? = some c → ¬ NameChar u c) : PFail (.grp 1 (.plus (.set (nameSet u)))) rest := by
  refine Xml.pfail_grp (CssL.pfail_cat (CssL.pfail_set (fun c hc => ?_)))
  cases h' : nameSet u c with
  | false => rfl
  | true => exact absurd ((nameSet_iff hu).1 h') (h c hc)

theorem blank_not_name (hu : u.Ascii) {c : Nat} (h : c = 9 ∨ c = 32) : ¬ NameChar u c := by
  rintro (h1 | h1)
  · rw [hu.word c (by omega)] at h1
    rcases h with rfl | rfl <;> simp at h1
  · omega

theorem drop_head_mem {b : List Nat} {rest : List Nat} {i : Nat} (hi : i < b.length) {c : Nat} (h : (b.drop i ++ rest).head? = some c) : c ∈ b := by
  rw [List.drop_eq_getElem_cons hi] at h
  simp only [List.cons_append, List.head?_cons, Option.some.injEq] at h
  exact h ▸ List.getElem_mem hi

theorem pc_blanks {g : Pat Nat} {b w post : List Nat} {k : Caps} (hb : Blanks b) (hg : PC g w post k)
    (hf : ∀ rest : List Nat, (∀ c, rest.head? = some c → c = 9 ∨ c = 32) → rest ≠ [] → PFail g rest) :
    PC (.cat (.lazy DocIO.blank) g) (b ++ w) post (shift b.length k) := by
  refine Xml.pc_lazy hg b (fun c hc => by simpa using hb c hc) (fun i hi => hf _ (fun c hc => hb c (drop_head_mem hi hc)) ?_)
  rw [List.drop_eq_getElem_cons hi]
  exact fun h => by cases h

/-- From the separator on. -/
theorem pc_sep (hu : u.Ascii) {sep w post : List Nat} (hs : Sep sep) (hw : IsName u w) (hp : ∀ c, post.head? = some c → ¬ NameChar u c) :
    PC (.cat (.alt (.cat (.str (str ":")) (.lazy DocIO.blank)) (.cat (.str (str "=")) (.cat (.lazy DocIO.blank) (.str (str "\"")))))
      (.grp 1 (.plus (.set (nameSet u))))) (sep ++ w) post [(1, sep.length, sep.length + w.length)] := by
  refine PC.same (fun t p c => run_dist _ _ _ t p c) ?_
  obtain ⟨b, hb, rfl | rfl⟩ := hs
  · refine PC.alt (PC.same (fun t p c => run_assoc _ _ _ t p c) ?_)
    have h1 := pc_blanks hb (pc_name hu hw hp) (fun rest h _ => pfail_name hu (fun c hc => blank_not_name hu (h c hc)))
    have h2 := Xml.PC.cat (PC.of (CssL.pbest_str (str ":") ((b ++ w) ++ post))) h1
    exact h2.eq (by simp) (by simp [shift]; omega)
  · have h0 : PC (.cat (.str (str "\"")) (.grp 1 (.plus (.set (nameSet u))))) (str "\"" ++ w) post [(1, 1, 1 + w.length)] :=
      (Xml.PC.cat (PC.of (CssL.pbest_str (str "\"") (w ++ post))) (pc_name hu hw hp)).eq rfl (by simp [shift, DocIO.str]; omega)
    have h1 := pc_blanks hb h0 (fun rest h _ => CssL.pfail_cat (CssL.pfail_chr (fun he => by have := h _ he; revert this; decide)))
    have h2 := Xml.PC.cat (PC.of (CssL.pbest_str (str "=") ((b ++ (str "\"" ++ w)) ++ post))) h1
    refine PC.alt' (CssL.pfail_cat (CssL.pfail_cat (CssL.pfail_chr (fun h => absurd (Option.some.inj h) (by decide))))) ?_
    refine PC.same (fun t p c => run_assoc _ _ _ t p c) ?_
    have h3 : ∀ t p c, (Pat.cat (.str (str "=")) (.cat (.cat (.lazy DocIO.blank) (.str (str "\""))) (.grp 1 (.plus (.set (nameSet u)))))).run t p c =
        (Pat.cat (.str (str "=")) (.cat (.lazy DocIO.blank) (.cat (.str (str "\"")) (.grp 1 (.plus (.set (nameSet u))))))).run t p c := by
      intro t p c
      rw [Pat.run, Pat.run]
      congr 1
      funext r
      rw [run_assoc]
    exact PC.same h3 (h2.eq (by simp) (by simp [shift, DocIO.str]; omega))

/-- From the key on. -/
theorem pc_key (hu : u.Ascii) {b sep w post : List Nat} (hb : Blanks b) (hs : Sep sep) (hw : IsName u w) (hp : ∀ c, post.head? = some c → ¬ NameChar u c) :
    PC (.cat (.str (str "en")) (.cat (.str (str "coding")) (.cat (.lazy DocIO.blank)
      (.cat (.alt (.cat (.str (str ":")) (.lazy DocIO.blank)) (.cat (.str (str "=")) (.cat (.lazy DocIO.blank) (.str (str "\"")))))
        (.grp 1 (.plus (.set (nameSet u))))))))
      (str "encoding" ++ (b ++ (sep ++ w))) post [(1, 8 + b.length + sep.length, 8 + b.length + sep.length + w.length)] := by
  have h1 := pc_blanks hb (pc_sep hu hs hw hp) (fun rest h hne => CssL.pfail_cat (CssL.pfail_alt
    (CssL.pfail_cat (CssL.pfail_chr (fun he => by have := h _ he; revert this; decide)))
    (CssL.pfail_cat (CssL.pfail_chr (fun he => by have := h _ he; revert this; decide)))))
  have h2 := Xml.PC.cat (PC.of (CssL.pbest_str (str "coding") ((b ++ (sep ++ w)) ++ post))) h1
  have h3 := Xml.PC.cat (PC.of (CssL.pbest_str (str "en") ((str "coding" ++ (b ++ (sep ++ w))) ++ post))) h2
  refine h3.eq (by rw [← List.append_assoc]; rfl) ?_
  simp [shift, DocIO.str]; omega

/-! ### Searching -/

theorem search_one {a : Pat Nat} {t : List Nat} {q e : Nat} {g : Caps} (hq : q ≤ t.length) (hb : BestC t a q e (shift q g))
    (hf : ∀ i < q, Fails t a i) : rxSearch [a] t 0 false = some ⟨q, e, ⟨0, g⟩⟩ := by
  refine search_first (q := q) (Nat.zero_le _) (fun i _ hi => ?_) ?_
  · rintro ⟨b, hb', r, hr⟩
    simp only [List.mem_singleton] at hb'
    subst hb'
    exact hf i hi r hr
  · have := match_rule (rs := [(⟨a, fun _ _ => ((), none)⟩ : PRule Nat Unit Unit)]) (i := 0) rfl (by simp) hb hq
    rwa [Xml.rel_shift] at this

theorem search_none {a : Pat Nat} {t : List Nat} (hf : ∀ i ≤ t.length, Fails t a i) : rxSearch [a] t 0 false = none := by
  rw [C70_none]
  rintro i _ hi ⟨b, hb', r, hr⟩
  simp only [List.mem_singleton] at hb'
  subst hb'
  exact hf i hi r hr

theorem fails_key {t : List Nat} {i : Nat} (h : ¬ str "encoding" <+: t.drop i) : Fails t (DocIO.encodingPat u.word) i := by
  rintro q ⟨r, ⟨rfl, _⟩, s, h2, v, h3, _⟩
  obtain ⟨rfl, p1, e1⟩ := str_mat _ h2
  obtain ⟨rfl, p2, e2⟩ := str_mat _ h3
  refine h ⟨p2, ?_⟩
  have : p1 = str "coding" ++ p2 := by
    rw [← e2, ← List.drop_drop, e1, List.drop_left]
  rw [e1, this, ← List.append_assoc]; rfl

theorem fails_charset {t : List Nat} {i : Nat} (h : ¬ str "@charset" <+: t.drop i) : Fails t (charsetPat u.space u.word) i := by
  rintro q ⟨r, h1, _⟩
  obtain ⟨_, p1, e1⟩ := str_mat _ h1
  exact h ⟨p1, e1.symm⟩

theorem pc_charset (hu : u.Ascii) {w post : List Nat} (hw : IsName u w) :
    PC (charsetPat u.space u.word) (str "@charset" ++ (str " " ++ (str "\"" ++ (w ++ str "\"")))) post [(1, 10, 10 + w.length)] := by
  have hq : ∀ c, (str "\"" ++ post).head? = some c → ¬ NameChar u c := by
    intro c hc
    have : c = 34 := by simp [DocIO.str] at hc; exact hc.symm
    subst this
    rintro (h | h)
    · rw [hu.word 34 (by omega)] at h; cases h
    · cases h
  have h1 := Xml.PC.cat (pc_name hu hw hq) (PC.of (CssL.pbest_str (str "\"") post))
  have h2 := Xml.PC.cat (PC.of (CssL.pbest_str (str "\"") ((w ++ str "\"") ++ post))) h1
  have h3 := Xml.PC.cat (PC.of (CssL.pbest_star (g := u.space) (w := str " ") (post := (str "\"" ++ (w ++ str "\"")) ++ post)
    (fun c hc => by
      have : c = 32 := by simpa [DocIO.str] using hc
      subst this; rw [hu.space 32 (by omega)]; rfl)
    (fun c hc => by
      have : c = 34 := by simp [DocIO.str] at hc; exact hc.symm
      subst this; rw [hu.space 34 (by omega)]; rfl))) h2
  have h4 := Xml.PC.cat (PC.of (CssL.pbest_str (str "@charset") ((str " " ++ (str "\"" ++ (w ++ str "\""))) ++ post))) h3
  exact h4.eq rfl (by simp [shift, DocIO.str]; omega)

end Parce.FEnc
