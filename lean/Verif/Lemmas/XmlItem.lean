import Verif.Lemmas.XmlAttr
import Verif.Lemmas.CssEnd
/-!
# Pieces of XML texts, and the tree of a whole text
-/
namespace Parce.Xml
open Parce.Json (Uni str)
variable {u : Uni}

theorem misses_content {l : XL} {ci : Bool} (hl : Cont l ci) {rest : List Nat} (h : ∀ c, rest.head? = some c → c ≠ 60 ∧ c ≠ 38) : Misses u l rest := by
  refine misses_of (fun r hr => ?_)
  rw [cont_rules hl] at hr
  have e1 : str "<!--" = 60 :: str "!--" := by decide
  have e2 : str "<![" = 60 :: str "![" := by decide
  have e3 : str "<!" = 60 :: str "!" := by decide
  have e4 : str "<?" = 60 :: str "?" := by decide
  have e5 : str "<" = [60] := by decide
  have hs : ∀ (c : Nat) (s : List Nat) (x : Option Nat), x ≠ some c → (Pat.str (c :: s)).can x = false := by
    intro c s x hx
    have hx' : (x.map (· == c)).getD false = false := by
      cases x with
      | none => rfl
      | some y => simpa using hx
    cases s <;> simp [Pat.str, Pat.chr, Pat.can, Pat.fst, Pat.nul]
    all_goals (cases x <;> simp_all)
  have h60 : ∀ s, (Pat.str (60 :: s)).can rest.head? = false := fun s => hs 60 s _ (fun he => (h 60 he).1 rfl)
  have h38 : ∀ s, (Pat.str (38 :: s)).can rest.head? = false := fun s => hs 38 s _ (fun he => (h 38 he).2 rfl)
  have hcat : ∀ (a b : Pat Nat), a.nul = false → a.can rest.head? = false → (Pat.cat a b).can rest.head? = false := by
    intro a b ha hb
    simp only [Pat.can, hb, Bool.false_and]
  simp only [contentRules, rule, List.mem_cons, List.not_mem_nil, or_false] at hr
  rcases hr with rfl | rfl | rfl | rfl | rfl | rfl | rfl
  · simp only [chr, e1]; exact h60 _
  · refine hcat _ _ rfl ?_
    show (Pat.str (str "<![")).can _ = false
    rw [e2]; exact h60 _
  · refine hcat _ _ rfl ?_
    show (Pat.str (str "<!")).can _ = false
    rw [e3]; exact h60 _
  · refine hcat _ _ rfl ?_
    show (Pat.str (str "<?")).can _ = false
    rw [e4]; exact h60 _
  · refine hcat _ _ rfl ?_
    show (Pat.cat (chr "<") _).can _ = false
    refine hcat _ _ rfl ?_
    show (Pat.str (str "<")).can _ = false
    rw [e5]; exact h60 _
  · refine hcat _ _ rfl ?_
    show (Pat.str (str "<")).can _ = false
    rw [e5]; exact h60 _
  · refine hcat _ _ rfl ?_
    show (Pat.str (str "&")).can _ = false
    rw [s7]; exact h38 _

/-- A piece that is not text starts with a match. -/
theorem item_begins (hu : u.Ascii) {l : XL} {ci : Bool} (hl : Cont l ci) (i : Item) (hi : i.ok u false) (hn : ∀ w, i ≠ .text w) (post : List Nat) :
    Begins u l (i.str ++ post) := by
  cases i with
  | text w => exact absurd rfl (hn w)
  | ref w => have := (hits_ref (post := post) hu hl hi).begins; simpa [Item.str] using this
  | comment w => have := (hits_comment (u := u) hl (w ++ str "-->" ++ post)).begins; simpa [Item.str] using this
  | cdata w => have := (hits_cdata hu hl (w ++ str "]]>" ++ post)).begins; simpa [Item.str] using this
  | pi m as ws =>
    obtain ⟨h1, h2, h3⟩ := hi
    have := (hits_pi hu hl h1 (pi_term as h2 h3 post)).begins
    simpa [Item.str] using this
  | empty m as ws =>
    obtain ⟨h1, h2, h3⟩ := hi
    by_cases has : as = []
    · subst has
      have := (hits_open (post := post) hu hl true h1 h3).begins
      simpa [Item.str, attrsText, str, tagStop] using this
    · obtain ⟨w1, n1, r1, k1, k2, k3, k4⟩ := attrs_head has h2 (ws ++ str "/>" ++ post)
      have := (hits_open_attrs hu hl (post := r1) h1 k2 k3 k4).begins
      rw [← k1] at this
      simpa [Item.str, str] using this
  | elem m as ws c ws' =>
    obtain ⟨h1, h2, h3, _, _⟩ := hi
    by_cases has : as = []
    · subst has
      have := (hits_open (post := itemsStr c ++ str "</" ++ m ++ ws' ++ str ">" ++ post) hu hl false h1 h3).begins
      simpa [Item.str, attrsText, str, tagStop] using this
    · obtain ⟨w1, n1, r1, k1, k2, k3, k4⟩ := attrs_head has h2 (ws ++ str ">" ++ itemsStr c ++ str "</" ++ m ++ ws' ++ str ">" ++ post)
      have := (hits_open_attrs hu hl (post := r1) h1 k2 k3 k4).begins
      rw [← k1] at this
      simpa [Item.str, str] using this

theorem go_text (hu : u.Ascii) {l : XL} {ci : Bool} (hl : Cont l ci) {w post : List Nat} (h1 : w ≠ []) (h2 : ∀ c ∈ w, c ≠ 60 ∧ c ≠ 38)
    (h3 : Ws w ∨ ∃ c ∈ w, u.space c = false) (hp : post = [] ∧ Misses u l [] ∨ Begins u l post) {is : List V} {fs : List Fr} {n : Nat} {o : Bool} :
    Go u ⟨w ++ post, (l, is) :: fs, n, o⟩ ⟨post, (l, is ++ [.tok w (if ∀ c ∈ w, IsWs c then .whitespace else .text)]) :: fs, 0, true⟩ := by
  have := s_text (u := u) (l := l) (f := fun w => if w.all u.space then .whitespace else .text) (w := w) (is := is) (fs := fs) (n := n) (o := o)
    (by rcases hl with ⟨rfl, _⟩ | ⟨rfl, _⟩ <;> rfl) (by split <;> rfl) (by split <;> decide) h1 (by
      intro i hi
      rw [List.drop_eq_getElem_cons hi]
      refine misses_content hl (fun c hc => ?_)
      obtain rfl : w[i] = c := Option.some.inj hc
      exact h2 _ (List.getElem_mem hi)) hp
  have he : (if w.all u.space = true then XA.whitespace else .text) = if ∀ c ∈ w, IsWs c then .whitespace else .text := by
    by_cases h : ∀ c ∈ w, IsWs c
    · rw [if_pos h, if_pos]
      rw [List.all_eq_true]
      exact fun c hc => isWs_space hu (h c hc)
    · rw [if_neg h, if_neg]
      rw [List.all_eq_true]
      intro ha
      rcases h3 with h3 | ⟨c, hc, h3⟩
      · exact h h3
      · rw [ha c hc] at h3; cases h3
  rw [he] at this
  exact this

mutual
theorem item_go (hu : u.Ascii) : ∀ (i : Item), i.ok u false → ∀ {l : XL} {ci : Bool}, Cont l ci → ∀ (is : List V) (fs : List Fr) (n : Nat) (o : Bool) (post : List Nat),
    (∀ w, i = .text w → post = [] ∧ Misses u l [] ∨ Begins u l post) →
    Go u ⟨i.str ++ post, (l, is) :: fs, n, o⟩ ⟨post, (l, is ++ i.view) :: fs, 0, true⟩
  | .text w, h, l, ci, hl, is, fs, n, o, post, hp => by
    simp only [Item.str, Item.view]
    exact go_text hu hl h.1 h.2.1 (h.2.2 rfl) (hp w rfl)
  | .ref w, h, l, ci, hl, is, fs, n, o, post, hp => by
    simp only [Item.str, Item.view]
    exact s_toks (hits_ref hu hl h) rfl (by simp)
  | .comment w, h, l, ci, hl, is, fs, n, o, post, hp => by
    simp only [Item.str, Item.view]
    exact go_comment hu hl h.1 (h.2 rfl).1 (h.2 rfl).2
  | .cdata w, h, l, ci, hl, is, fs, n, o, post, hp => by
    simp only [Item.str, Item.view]
    exact go_cdata hu hl h post
  | .pi m as ws, h, l, ci, hl, is, fs, n, o, post, hp => by
    simp only [Item.str, Item.view]
    exact go_pi hu hl h.1 h.2.1 h.2.2 post
  | .empty m as ws, h, l, ci, hl, is, fs, n, o, post, hp => by
    simp only [Item.str, Item.view]
    exact go_empty hu hl h.1 h.2.1 h.2.2 post
  | .elem m as ws c ws', h, l, ci, hl, is, fs, n, o, post, hp => by
    obtain ⟨h1, h2, h3, h4, h5⟩ := h
    have hc : Cont .tag false := Or.inr ⟨rfl, rfl⟩
    have g1 := go_open (is := is) (fs := fs) (n := n) (o := o) hu hl h1 h2 h3 (itemsStr c ++ (str "</" ++ m ++ ws' ++ str ">" ++ post))
    have k := hits_close (post := post) hu hc h1 h5
    obtain ⟨n2, o2, _, g2⟩ := items_go hu c h4 hc [] ((l, is ++ ([.tok (str "<") .delimiter, .tok m .tagName] ++ tagEnd as ">")) :: fs) 1 true
      (str "</" ++ m ++ ws' ++ str ">" ++ post) (Or.inr k.begins)
    have g3 := s_leave (fs := fs) (l0 := l) (n := n2) (o := o2) (is := [] ++ itemsView c)
      (is0 := is ++ ([.tok (str "<") .delimiter, .tok m .tagName] ++ tagEnd as ">")) k (exp_close m ws' (name_ne h1)) (by simp)
    have := (g1.trans g2).trans g3
    simpa [Item.str, Item.view, mk] using this
theorem items_go (hu : u.Ascii) : ∀ (c : List Item), itemsOk u false c → ∀ {l : XL} {ci : Bool}, Cont l ci → ∀ (is : List V) (fs : List Fr) (n : Nat) (o : Bool)
    (post : List Nat), (post = [] ∧ Misses u l [] ∨ Begins u l post) →
    ∃ n' o', (n = 0 → n' = 0) ∧ Go u ⟨itemsStr c ++ post, (l, is) :: fs, n, o⟩ ⟨post, (l, is ++ itemsView c) :: fs, n', o'⟩
  | [], _, l, ci, hl, is, fs, n, o, post, hp => ⟨n, o, id, by simpa [itemsStr, itemsView] using Go.refl _⟩
  | i :: c, h, l, ci, hl, is, fs, n, o, post, hp => by
    obtain ⟨h1, h2, h3⟩ := h
    obtain ⟨n', o', h4, g2⟩ := items_go hu c h3 hl (is ++ i.view) fs 0 true post hp
    have g1 := item_go hu i h1 hl is fs n o (itemsStr c ++ post) (by
      intro w hw
      cases c with
      | nil => exact hp
      | cons j c =>
        right
        have := item_begins hu hl j h3.1 (fun w' hj => h2 w w' c hw (by rw [hj])) (itemsStr c ++ post)
        simpa [itemsStr] using this)
    refine ⟨n', o', fun _ => h4 rfl, ?_⟩
    have := g1.trans g2
    simpa [itemsStr, itemsView] using this
end

/-! ### The end -/

theorem end_step {t : List Nat} {s : LState XL RM} (hs : s.stack = [.root])
    (hps : parseNext XA.none ((lang u).ld .root) t s.ps = parseNext XA.none ((lang u).ld .root) t (.at t.length false)) :
    lexStep (lang u) t s = none := by
  have hc : Cont .root true := Or.inl ⟨rfl, rfl⟩
  have hm : rxSearch (pats u .root) t t.length false = none := by
    rw [C70_none]
    intro i h1 h2
    have : i = t.length := by omega
    subst this
    exact misses_content (rest := []) hc (by simp) t t.length (List.drop_length ..)
  have hn : parseNext XA.none ((lang u).ld .root) t (.at t.length false) = none := by
    show parseNext _ (compile .none (rules u .root) (dflt u .root)) _ _ = _
    rw [compile_cons _ _ _ (rules_ne _)]
    show parseNext _ (.regex _ _ _ (.action _)) _ _ = _
    simp only [parseNext]
    unfold pats at hm
    rw [hm]
    simp [tailTok]
  have h3 : parseNext (lang u).noAct ((lang u).ld .root) t s.ps = none := hps.trans hn
  unfold lexStep
  rw [hs]
  simp only
  rw [h3]

/-- The lexer comes to the end, and the tree is the expected one. -/
theorem run_items (hu : u.Ascii) (c : List Item) (h : itemsOk u false c) :
    ∃ n evs cs, lexRun (lang u) (itemsStr c) n (LState.start [.root] 0) = (evs, none) ∧ buildEvents .root evs = .ctx .root cs ∧
      views cs = itemsView c := by
  have hc : Cont .root true := Or.inl ⟨rfl, rfl⟩
  obtain ⟨n', o', h1, g⟩ := items_go hu c h hc [] [] 0 true [] (Or.inl ⟨rfl, misses_content (rest := []) hc (by simp)⟩)
  obtain rfl := h1 rfl
  rw [List.append_nil] at g
  generalize itemsStr c = t at g
  obtain ⟨q, k1, k2, k3⟩ := g t 0 rfl (Nat.zero_le _)
  have hq : q = t.length := by
    have := congrArg List.length k1
    simp only [List.length_drop, List.length_nil] at this
    omega
  subst hq
  obtain ⟨B, c', i1, i2, i3⟩ := k3 (⟨⟨.root, []⟩, []⟩ : BState Nat XL XA) [] rfl (cok_nil _)
  obtain ⟨⟨l, ks⟩, up⟩ := B
  have hfr := i1
  simp only [frs, BState.frames, List.map_cons, conv, List.map_nil, List.nil_append, List.cons.injEq, Prod.mk.injEq, List.map_eq_nil_iff] at hfr
  obtain ⟨⟨rfl, hks⟩, rfl⟩ := hfr
  obtain ⟨n, evs, e1, e2⟩ := fgoes_finish (b' := ⟨⟨.root, ks⟩, []⟩) i3 rfl (by
    intro s b hat
    exact end_step hat.stack hat.parse)
  refine ⟨n, evs, ks, e1, e2, ?_⟩
  rw [nodes_its] at hks
  have := congrArg (List.map unvit) hks
  rwa [map_unvit, map_unvit] at this

theorem items_tree (hu : u.Ascii) (c : List Item) (h : itemsOk u false c) (n : Nat) (hn : RB.Finished (lang u) .root (itemsStr c) n) :
    ∃ cs, buildTree (lang u) .root (itemsStr c) 0 n = .ctx .root cs ∧ views cs = itemsView c := by
  obtain ⟨m, evs, cs, h1, h2, h3⟩ := run_items hu c h
  have : (lexRun (lang u) (itemsStr c) n (LState.start [.root] 0)).1 = evs := by
    have e1 : RB.Ends (lang u) (itemsStr c) m (LState.start [.root] 0) evs := h1
    have e2 : RB.Ends (lang u) (itemsStr c) n (LState.start [.root] 0) (lexRun (lang u) (itemsStr c) n (LState.start [.root] 0)).1 := by
      unfold RB.Ends
      unfold RB.Finished at hn
      rw [Option.isNone_iff_eq_none] at hn
      rw [← hn]
    exact e2.unique e1
  refine ⟨cs, ?_, h3⟩
  unfold buildTree
  rw [this, h2]

end Parce.Xml
