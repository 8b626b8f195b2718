import Verif.Lemmas.JsonStr
/-!
# Values of JSON
-/
namespace Parce.Json
variable {u : Uni} {t : List Nat} {F : Type}

/-! ### The other tokens -/

theorem no_value (hu : u.Ascii) {q c : Nat} {w post : List Nat} (hd : t.drop q = (c :: w) ++ post) (hc : c = 44 ∨ c = 93 ∨ c = 125) :
    ∀ r ∈ values u, Fails t r.pat q := by
  intro r hr
  refine (begins_values r hr).fails (fun c' hc' => ?_)
  rw [head_get hd hc']
  have := hu.digit c (by omega)
  rcases hc with rfl | rfl | rfl <;> simp [vFirst, this]

theorem hit_comma_value (hu : u.Ascii) {p : Nat} {ws post : List Nat} (hws : Ws ws) (ht : t.drop p = ws ++ (str "," ++ post)) :
    Hit t (rules u .value) (dflt .value) p (p + ws.length) (str ",") .delimiter (some ⟨1, []⟩) :=
  hit_of hu (rs := values u) rfl hws ht (by simp [str]) (Or.inr ⟨rfl, by simp⟩) (no_value hu (c := 44) (w := []) (drop_add ht) (by simp)) (best_str _ (drop_add ht)) (fun _ => rfl)

theorem hit_rbrace_value (hu : u.Ascii) {p : Nat} {ws post : List Nat} (hws : Ws ws) (ht : t.drop p = ws ++ (str "}" ++ post)) :
    Hit t (rules u .value) (dflt .value) p (p + ws.length) (str "}") .delimiter (some ⟨2, []⟩) := by
  have hd := drop_add ht
  refine hit_of hu (rs := values u ++ [rule (chr ",") .delimiter (some ⟨1, []⟩)]) (qs := []) (r := rule (chr "}") .delimiter (some ⟨2, []⟩)) (by simp [rules]) hws ht (by simp [str])
    (Or.inr ⟨rfl, by simp⟩) (fun r hr => ?_) (best_str _ hd) (fun _ => rfl)
  rcases List.mem_append.1 hr with hr | hr
  · exact no_value hu (c := 125) (w := []) hd (by simp) r hr
  · simp only [List.mem_cons, List.not_mem_nil, or_false] at hr
    subst hr
    exact (begins_chr 44 []).fails (fun c' hc' => by rw [head_get (c := 125) (w := []) hd hc']; rfl)

theorem hit_comma_array (hu : u.Ascii) {p : Nat} {ws post : List Nat} (hws : Ws ws) (ht : t.drop p = ws ++ (str "," ++ post)) :
    Hit t (rules u .array) (dflt .array) p (p + ws.length) (str ",") .delimiter none :=
  hit_of hu (rs := values u) rfl hws ht (by simp [str]) (Or.inr ⟨rfl, by simp⟩) (no_value hu (c := 44) (w := []) (drop_add ht) (by simp)) (best_str _ (drop_add ht)) (fun _ => rfl)

theorem hit_rbrack (hu : u.Ascii) {p : Nat} {ws post : List Nat} (hws : Ws ws) (ht : t.drop p = ws ++ (str "]" ++ post)) :
    Hit t (rules u .array) (dflt .array) p (p + ws.length) (str "]") .delimiter (some ⟨1, []⟩) := by
  have hd := drop_add ht
  refine hit_of hu (rs := values u ++ [rule (chr ",") .delimiter]) (qs := []) (r := rule (chr "]") .delimiter (some ⟨1, []⟩)) (by simp [rules]) hws ht (by simp [str])
    (Or.inr ⟨rfl, by simp⟩) (fun r hr => ?_) (best_str _ hd) (fun _ => rfl)
  rcases List.mem_append.1 hr with hr | hr
  · exact no_value hu (c := 93) (w := []) hd (by simp) r hr
  · simp only [List.mem_cons, List.not_mem_nil, or_false] at hr
    subst hr
    exact (begins_chr 44 []).fails (fun c' hc' => by rw [head_get (c := 93) (w := []) hd hc']; rfl)

theorem hit_key (hu : u.Ascii) {p : Nat} {ws post : List Nat} (hws : Ws ws) (ht : t.drop p = ws ++ (str "\"" ++ post)) :
    Hit t (rules u .key) (dflt .key) p (p + ws.length) (str "\"") .start (some ⟨0, [.string]⟩) :=
  hit_of hu (rs := []) rfl hws ht (by simp [str]) (Or.inr ⟨rfl, by simp⟩) (by simp) (best_str _ (drop_add ht)) (fun _ => rfl)

theorem hit_colon (hu : u.Ascii) {p : Nat} {ws post : List Nat} (hws : Ws ws) (ht : t.drop p = ws ++ (str ":" ++ post)) :
    Hit t (rules u .key) (dflt .key) p (p + ws.length) (str ":") .delimiter (some ⟨1, [.value]⟩) := by
  have hd := drop_add ht
  refine hit_of hu (rs := [rule (chr "\"") .start (some ⟨0, [.string]⟩)]) rfl hws ht (by simp [str]) (Or.inr ⟨rfl, by simp⟩)
    (fun r hr => ?_) (best_str _ hd) (fun _ => rfl)
  simp only [List.mem_cons, List.not_mem_nil, or_false] at hr
  subst hr
  exact (begins_chr 34 []).fails (fun c' hc' => by rw [head_get (c := 58) (w := []) hd hc']; rfl)

theorem hit_rbrace_object (hu : u.Ascii) {p : Nat} {post : List Nat} (ht : t.drop p = str "}" ++ post) :
    Hit t (rules u .object) (dflt .object) p p (str "}") .delimiter (some ⟨1, []⟩) := by
  have := hit_of (l := .object) (ws := []) (w := str "}") (a := .delimiter) (tg := some ⟨1, []⟩) (rs := []) hu rfl (by simp [Ws]) ht (by simp [str])
    (Or.inl rfl) (by simp) (best_str _ ht) (fun _ => rfl)
  simpa using this

theorem ws_space (hu : u.Ascii) {w : List Nat} (h : Ws w) : ∀ c ∈ w, u.space c = true := by
  intro c hc
  have := h c hc
  rw [hu.space c (by omega)]
  simp; omega

/-- White space in an object. -/
theorem goes_ws (hu : u.Ascii) {p : Nat} {ws post : List Nat} (hws : Ws ws) (ht : t.drop p = ws ++ post)
    (hp : ∀ c, post.head? = some c → u.space c = false) {B : BState Nat JL JA} (hB : B.cur.lex = .object) :
    JGoes u t ⟨p, B, true⟩ ⟨p + ws.length, B, true⟩ := by
  by_cases h : ws = []
  · subst h; exact Goes.refl _
  · have := hit_of (u := u) (l := .object) (p := p) (ws := []) (w := ws) (a := .skip) (tg := none)
      (rs := [rule (chr "}") .delimiter (some ⟨1, []⟩)]) hu rfl (by simp [Ws]) ht h (Or.inl rfl) (fun r hr => ?_)
      (best_plus ht h (ws_space hu hws) hp) (fun _ => rfl)
    · exact jskip (by rw [hB]; exact this)
    · simp only [List.mem_cons, List.not_mem_nil, or_false] at hr
      subst hr
      refine (begins_chr 125 []).fails (fun c' hc' => ?_)
      cases ws with
      | nil => exact absurd rfl h
      | cons c ws =>
        have h1 := hws c (List.mem_cons_self ..)
        have h2 := head_get (t := t) (q := p) ht hc'
        subst h2
        simp; omega

/-- The default target of an object. -/
theorem goes_key (hu : u.Ascii) {p : Nat} {post : List Nat} (ht : t.drop p = str "\"" ++ post) {K : List (Node Nat JL JA)}
    {up : List (Frame Nat JL JA)} :
    JGoes u t ⟨p, ⟨⟨.object, K⟩, up⟩, true⟩ ⟨p, ⟨⟨.key, []⟩, ⟨.object, K⟩ :: up⟩, false⟩ := by
  have hlt : p < t.length := by
    have h1 := drop_le ht (by simp [str])
    have h2 : (str "\"").length = 1 := rfl
    omega
  refine goes_to (noAct := .none) (skip := (· == .skip)) (consume := fun _ => false) (rules := rules u) (d := dflt) (B := ⟨⟨.object, K⟩, up⟩) (ls := [.key]) rfl hlt (no_start (fun c hc => ?_))
  rw [head_get (c := 34) (w := []) ht hc]
  simp only [first]
  rw [hu.space 34 (by decide)]; rfl

/-! ### What is on the left -/

theorem left_ws (hu : u.Ascii) {p : Nat} {ws rest : List Nat} (h : Left u t p) (hws : Ws ws) (ht : t.drop p = ws ++ rest) :
    Left u t (p + ws.length) := by
  by_cases hw : ws = []
  · subst hw; exact h
  · intro _ c hc
    have hl := List.length_pos_iff.2 hw
    obtain ⟨c', h1, h2⟩ := drop_mem (i := p + ws.length - 1) ht (by omega) (by omega)
    rw [h2] at hc
    cases hc
    have := hws c h1
    rw [hu.word c (by omega)]
    simp; omega

theorem left_after (hu : u.Ascii) {p c : Nat} {post : List Nat} (ht : t.drop p = c :: post)
    (hc : c = 91 ∨ c = 44 ∨ c = 58) : Left u t (p + 1) := by
  intro _ c' hc'
  rw [Nat.add_sub_cancel, drop_get ht] at hc'
  cases hc'
  rw [hu.word c (by omega)]
  simp; omega

/-! ### The values -/

theorem valuesOf_append (f : Floats F) (a b : List (Itm F)) : valuesOf f (a ++ b) = valuesOf f a ++ valuesOf f b := by
  induction a with
  | nil => rfl
  | cons x a ih =>
    cases x with
    | tok t => 
      simp only [List.cons_append, valuesOf, ih]
      by_cases h1 : t.act = .number
      · simp only [h1, if_true, List.cons_append]
      · by_cases h2 : t.act = .constant
        · simp only [h2, reduceCtorEq, if_false, if_true, List.cons_append]
        · simp only [h1, h2, if_false]
    | item n v => simp only [List.cons_append, valuesOf, ih]
    | raw c => simp only [List.cons_append, valuesOf, ih]

/-- The values of a list of nodes. -/
def vals (f : Floats F) (ns : List (Node Nat JL JA)) : List (PV F) := valuesOf f (itmL (env f) false ns)

theorem vals_append (f : Floats F) (a b : List (Node Nat JL JA)) : vals f (a ++ b) = vals f a ++ vals f b := by
  unfold vals
  rw [itmL_append, valuesOf_append]

theorem vals_delim (f : Floats F) (p : Nat) (w : List Nat) : vals f [.tok ⟨p, w, .delimiter, none⟩] = [] := rfl
theorem vals_start (f : Floats F) (p : Nat) (w : List Nat) : vals f [.tok ⟨p, w, .start, none⟩] = [] := rfl
theorem vals_number (f : Floats F) (p : Nat) (w : List Nat) : vals f [.tok ⟨p, w, .number, none⟩] = [numVal f w] := rfl
theorem vals_constant (f : Floats F) (p : Nat) (w : List Nat) : vals f [.tok ⟨p, w, .constant, none⟩] = [constVal w] := rfl
theorem vals_ctx (f : Floats F) (l : JL) (cs : List (Node Nat JL JA)) :
    vals f [.ctx l cs] = [(method f l).run ⟨l, itmL (env f) false cs⟩] := by
  cases l <;> rfl

/-- The items of a list of nodes. -/
def its (f : Floats F) (ns : List (Node Nat JL JA)) : List (JL × PV F) := itemsOfList .root (fun _ => .none) (itmL (env f) false ns)

theorem itemsOfList_append {α L A R N : Type} (rn : N) (ro : Node α L A → R) (a b : List (TItm α L A R N)) :
    itemsOfList rn ro (a ++ b) = itemsOfList rn ro a ++ itemsOfList rn ro b := by
  induction a with
  | nil => rfl
  | cons x a ih => cases x <;> simp only [List.cons_append, itemsOfList, ih]

theorem its_append (f : Floats F) (a b : List (Node Nat JL JA)) : its f (a ++ b) = its f a ++ its f b := by
  unfold its
  rw [itmL_append, itemsOfList_append]

theorem its_tok (f : Floats F) (x : TokN Nat JA) : its f [.tok x] = [] := rfl
theorem its_ctx (f : Floats F) (l : JL) (cs : List (Node Nat JL JA)) :
    its f [.ctx l cs] = [(l, (method f l).run ⟨l, itmL (env f) false cs⟩)] := by
  cases l <;> rfl

/-- The names and values of an object as they are found in the context. -/
def flat (l : List (List Nat × PV F)) : List (JL × PV F) := l.flatMap (fun x => [(.key, .str x.1), (.value, x.2)])

theorem groups_flat (l : List (List Nat × PV F)) :
    groupedObjects [JL.key, JL.value] (flat l) = l.map (fun x => [some (.str x.1), some x.2]) := by
  have h : ∀ (l : List (List Nat × PV F)) (a b : Option (PV F)),
      groupLoopI [JL.key, JL.value] [a, b] (some 1) (flat l) = [a, b] :: l.map (fun x => [some (.str x.1), some x.2]) := by
    intro l
    induction l with
    | nil => intro a b; rfl
    | cons x l ih =>
      intro a b
      have hk : nameIndex [JL.key, JL.value] JL.key = some 0 := by decide
      have hv : nameIndex [JL.key, JL.value] JL.value = some 1 := by decide
      simp only [flat, List.flatMap_cons, List.cons_append, List.nil_append, groupLoopI, hk, hv]
      simp [setGroup]
      exact ih _ _
  cases l with
  | nil => rfl
  | cons x l =>
    have hk : nameIndex [JL.key, JL.value] JL.key = some 0 := by decide
    have hv : nameIndex [JL.key, JL.value] JL.value = some 1 := by decide
    simp only [flat, List.flatMap_cons, List.cons_append, List.nil_append, groupedObjects, groupLoopI, hk, hv]
    simp [setGroup]
    exact h l _ _

/-! ### dict() -/

theorem dict_find {X : Type} (l : List (List Nat × X)) (k : List Nat) : k ∈ names l ↔ (lastVal k l).isSome := by
  induction l with
  | nil => simp [names, lastVal]
  | cons x l ih =>
    obtain ⟨k', v⟩ := x
    simp only [names, List.mem_cons, List.mem_filter, bne_iff_ne, ne_eq, lastVal, ih]
    cases h : lastVal k l with
    | some y =>
      simp only [Option.isSome_some, true_and, iff_true]
      by_cases hk : k = k'
      · exact Or.inl hk
      · exact Or.inr hk
    | none =>
      by_cases hk : k' = k
      · simp [hk]
      · simp [hk, Ne.symm (a := k') (b := k) hk]

theorem names_nodup {X : Type} (l : List (List Nat × X)) : (names l).Nodup := by
  induction l with
  | nil => simp [names]
  | cons x l ih =>
    simp only [names, List.nodup_cons, List.mem_filter, bne_self_eq_false, Bool.false_eq_true, and_false, not_false_eq_true, true_and]
    exact ih.filter _

theorem names_snoc {X : Type} (l : List (List Nat × X)) (k : List Nat) (v : X) :
    names (l ++ [(k, v)]) = if k ∈ names l then names l else names l ++ [k] := by
  induction l with
  | nil => simp [names]
  | cons x l ih =>
    obtain ⟨k', v'⟩ := x
    simp only [List.cons_append, names, ih, List.mem_cons, List.mem_filter, bne_iff_ne, ne_eq]
    by_cases hk : k = k'
    · subst hk
      simp only [true_or, if_true]
      split
      · rfl
      · simp
    · by_cases hm : k ∈ names l
      · simp [hm, hk]
      · simp [hm, hk]

theorem lastVal_snoc {X : Type} (l : List (List Nat × X)) (k k' : List Nat) (v : X) :
    lastVal k' (l ++ [(k, v)]) = if k = k' then some v else lastVal k' l := by
  induction l with
  | nil => simp [lastVal]
  | cons x l ih =>
    simp only [List.cons_append, lastVal, ih]
    by_cases h : k = k'
    · simp [h]
    · simp [h]

theorem filterMap_same {X Y : Type} {f g : X → Option Y} : ∀ {l : List X}, (∀ x ∈ l, f x = g x) → l.filterMap f = l.filterMap g := by
  intro l
  induction l with
  | nil => intro _; rfl
  | cons x l ih =>
    intro h
    rw [List.filterMap_cons, List.filterMap_cons, h x (List.mem_cons_self ..), ih (fun y hy => h y (List.mem_cons_of_mem _ hy))]

theorem dictSet_map (ns : List (List Nat)) (g : List Nat → Option (PV F)) (k : List Nat) (v : PV F) (hn : ns.Nodup)
    (hg : ∀ k' ∈ ns, (g k').isSome) :
    dictSet (ns.filterMap (fun k' => (g k').map (fun v => (PV.str k', v)))) (.str k) v =
      (if k ∈ ns then ns else ns ++ [k]).filterMap (fun k' => (if k = k' then some v else g k').map (fun v => (PV.str k', v))) := by
  induction ns with
  | nil => simp [dictSet]
  | cons k0 ns ih =>
    simp only [List.nodup_cons] at hn
    obtain ⟨y, hy⟩ := Option.isSome_iff_exists.1 (hg k0 (List.mem_cons_self ..))
    have ih := ih hn.2 (fun k' h => hg k' (List.mem_cons_of_mem _ h))
    simp only [List.filterMap_cons, hy, Option.map_some, dictSet, sameKey, List.mem_cons]
    by_cases hk : k0 = k
    · subst hk
      simp only [beq_self_eq_true, if_true, true_or, List.filterMap_cons, Option.map_some, List.cons.injEq, true_and]
      refine filterMap_same (fun k' hk' => ?_)
      rw [if_neg]
      rintro rfl
      exact hn.1 hk'
    · have hk' : ¬ k = k0 := fun h => hk h.symm
      have hb : (k0 == k) = false := by simpa using hk
      simp only [hb, Bool.false_eq_true, if_false, hk', false_or, ih]
      split
      · simp [hk', hy]
      · simp [hk', hy]

theorem dict_all (l : List (List Nat × PV F)) :
    l.foldl (fun d x => dictSet d (PV.str x.1) x.2) [] = (names l).filterMap (fun k => (lastVal k l).map (fun v => (PV.str k, v))) := by
  suffices h : ∀ (l l0 : List (List Nat × PV F)),
      l.foldl (fun d x => dictSet d (PV.str x.1) x.2) ((names l0).filterMap (fun k => (lastVal k l0).map (fun v => (PV.str k, v)))) =
      (names (l0 ++ l)).filterMap (fun k => (lastVal k (l0 ++ l)).map (fun v => (PV.str k, v))) by
    simpa [names] using h l []
  intro l
  induction l with
  | nil => intro l0; simp
  | cons x l ih =>
    intro l0
    obtain ⟨k, v⟩ := x
    simp only [List.foldl_cons]
    rw [dictSet_map _ _ _ _ (names_nodup l0) (fun k' h => (dict_find l0 k').1 h)]
    have := ih (l0 ++ [(k, v)])
    rw [List.append_assoc, List.singleton_append] at this
    rw [← this, names_snoc]
    congr 1
    refine filterMap_same (fun k' _ => ?_)
    rw [lastVal_snoc]

theorem names_pyO (f : Floats F) (l : List (List Nat × JV)) : names (pyO f l) = names l := by
  induction l with
  | nil => rfl
  | cons x l ih => obtain ⟨k, v⟩ := x; simp only [pyO, names, ih]

/-- The value of an object. -/
theorem object_value (f : Floats F) (l : List (List Nat × JV)) (ns : List (Node Nat JL JA)) (h : its f ns = flat (pyO f l)) :
    objectOf (itmL (env f) false ns) = (JV.obj l).py f := by
  unfold its at h
  simp only [objectOf, h, groups_flat, List.foldl_map, orNone, JV.py]
  rw [dict_all, names_pyO]

end Parce.Json
