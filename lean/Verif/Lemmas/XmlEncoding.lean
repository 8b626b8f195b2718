import Verif.Model.XmlEncoding
import Verif.Spec.XmlEncoding
import Verif.Lemmas.XmlItem
import Verif.Lemmas.TreePrefix
/-!
# The encoding found in an XML text
-/
namespace Parce.Xml
open Parce.Json (Uni str)
variable {u : Uni}

/-! ### With the views -/

def vFirst : V → Option (List Nat)
  | .ctx .dqstring (.tok w _ :: _) => some w
  | _ => none

def vEncs : List V → List (List Nat)
  | [] => []
  | v :: rest =>
    (match v with
      | .tok w a => if a = .attribute ∧ w = str "encoding" then rest.filterMap vFirst else []
      | _ => []) ++ vEncs rest

def vPi : V → List (List Nat)
  | .ctx .pi vs => vEncs vs
  | _ => []

theorem first_view (n : XNode) : dqFirst n = vFirst (view n) := by
  cases n with
  | tok t => rfl
  | ctx l cs =>
    cases cs with
    | nil => cases l <;> rfl
    | cons m cs =>
      cases m with
      | tok t => cases l <;> rfl
      | ctx l' cs' => 
        cases l
        case dqstring => by_cases h : l' = .comment <;> simp [view, views, vFirst, dqFirst, h]
        all_goals rfl

theorem firsts_view (ns : List XNode) : ns.filterMap dqFirst = (views ns).filterMap vFirst := by
  induction ns with
  | nil => rfl
  | cons n ns ih => simp only [views, List.filterMap_cons, first_view, ih]

theorem encs_view (ns : List XNode) : encs ns = vEncs (views ns) := by
  induction ns with
  | nil => rfl
  | cons n ns ih =>
    cases n with
    | tok t => simp only [encs, views, view, vEncs, firsts_view, ih]
    | ctx l cs => 
      by_cases h : l = .comment <;> simp [encs, views, view, vEncs, ih, h]

theorem pi_view (n : XNode) : piEncs n = vPi (view n) := by
  cases n with
  | tok t => rfl
  | ctx l cs =>
    cases l
    case pi => simp [piEncs, view, vPi, encs_view]
    all_goals rfl

theorem pis_view (ns : List XNode) : ns.flatMap piEncs = (views ns).flatMap vPi := by
  induction ns with
  | nil => rfl
  | cons n ns ih => simp only [views, List.flatMap_cons, pi_view, ih]

theorem views_append (a b : List XNode) : views (a ++ b) = views a ++ views b := by
  induction a with
  | nil => rfl
  | cons n a ih => simp [views, ih]

/-! ### Declarations -/

/-- Nothing in these is the attribute. -/
def Quiet (v : V) : Prop := ∀ a w, v = .tok w a → ¬ (a = .attribute ∧ w = str "encoding")

theorem encs_quiet : ∀ (vs rest : List V), (∀ v ∈ vs, Quiet v) → vEncs (vs ++ rest) = vEncs rest
  | [], _, _ => rfl
  | v :: vs, rest, h => by
    have h1 := h v (by simp)
    have h2 := encs_quiet vs rest (fun x hx => h x (by simp [hx]))
    simp only [List.cons_append, vEncs, h2]
    cases v with
    | tok w a => simp [h1 a w rfl]
    | ctx l cs => rfl
    | comment w => rfl

theorem quiet_act {w : List Nat} {a : XA} (h : a ≠ .attribute) : Quiet (.tok w a) := by
  intro a' w' he
  cases he
  exact fun hh => h hh.1

theorem quiet_space (w : List Nat) : ∀ v ∈ spaceView w, Quiet v := by
  intro v hv
  unfold spaceView at hv
  split at hv
  · cases hv
  · simp only [List.mem_singleton] at hv
    subst hv
    exact quiet_act (by decide)

theorem quiet_ctx {l : XL} {cs : List V} : Quiet (.ctx l cs) := by
  intro a w he; cases he

theorem quiet_value (a : Attr) : ∀ v ∈ a.valueView, Quiet v := by
  intro v hv
  unfold Attr.valueView at hv
  split at hv <;> simp only [List.mem_cons, List.not_mem_nil, or_false] at hv <;> rcases hv with rfl | rfl
  all_goals first | exact quiet_ctx | exact quiet_act (by decide)

theorem quiet_attr {a : Attr} (h : a.name ≠ str "encoding") : ∀ v ∈ a.piView, Quiet v := by
  intro v hv
  simp only [Attr.piView, List.mem_append, List.mem_cons, List.not_mem_nil, or_false] at hv
  rcases hv with ((hv | rfl | rfl) | hv) | hv
  · exact quiet_space _ v hv
  · intro a' w he
    cases he
    exact fun hh => h hh.2
  · exact quiet_act (by decide)
  · exact quiet_space _ v hv
  · exact quiet_value a v hv

theorem quiet_attrs {l : List Attr} (h : ∀ b ∈ l, b.name ≠ str "encoding") : ∀ v ∈ l.flatMap Attr.piView, Quiet v := by
  intro v hv
  obtain ⟨b, hb, hv⟩ := List.mem_flatMap.1 hv
  exact quiet_attr (h b hb) v hv

theorem encs_attr {a : Attr} {w : List Nat} (h1 : a.name = str "encoding") (h2 : a.double = true) (h3 : a.value = [.chars w]) (rest : List V) :
    (vEncs (a.piView ++ rest)).head? = some w := by
  have e1 : a.piView ++ rest = spaceView a.before ++ (.tok (str "encoding") .attribute :: (.tok (str "=") .operator :: (spaceView a.right ++ (a.valueView ++ rest)))) := by
    simp [Attr.piView, h1]
  rw [e1, encs_quiet _ _ (quiet_space _)]
  simp only [vEncs, and_self, if_true]
  have e2 : (V.tok (str "=") .operator :: (spaceView a.right ++ (a.valueView ++ rest))).filterMap vFirst = w :: rest.filterMap vFirst := by
    have hs : (spaceView a.right).filterMap vFirst = [] := by unfold spaceView; split <;> rfl
    have hv : a.valueView.filterMap vFirst = [w] := by
      unfold Attr.valueView
      rw [h2, h3]
      rfl
    rw [List.filterMap_cons]
    simp only [vFirst, List.filterMap_append, hs, hv]
    rfl
  rw [e2]
  rfl

theorem encs_decl {as : List Attr} {w : List Nat} (h : Declares as w) (hd : ∀ a ∈ as, a.double = true) (rest : List V) :
    (vEncs (as.flatMap Attr.piView ++ rest)).head? = some w := by
  obtain ⟨l1, a, l2, rfl, h1, h2, h3⟩ := h
  rw [List.flatMap_append, List.flatMap_cons, List.append_assoc, List.append_assoc, encs_quiet _ _ (quiet_attrs h3)]
  exact encs_attr h1 (hd a (by simp)) h2 _

theorem xml_name (hu : u.Ascii) : Name u (str "xml") := by
  have h : ∀ c ∈ str "xml", c < 128 ∧ ((9 ≤ c && c ≤ 13) || (28 ≤ c && c ≤ 32)) = false := by decide
  refine ⟨⟨120, str "ml", by decide, by unfold IsStart; decide, ?_⟩, fun c hc => by rw [hu.space c (h c hc).1]; exact (h c hc).2⟩
  unfold IsName IsStart
  decide

/-- The tree starts with the declaration. -/
theorem decl_tree (hu : u.Ascii) {as : List Attr} {ws post : List Nat} (ha : ∀ a ∈ as, a.ok u) (hw : Ws ws) (n : Nat)
    (hn : RB.Finished (lang u) .root (declText as ws ++ post) n) :
    ∃ cs ms, buildTree (lang u) .root (declText as ws ++ post) 0 n = .ctx .root (cs ++ ms) ∧
      views cs = [.tok (str "<?") .ppStart, .tok (str "xml") .ppName, .ctx .pi (as.flatMap Attr.piView ++ spaceView ws ++ [.tok (str "?>") .ppEnd])] := by
  have hc : Cont .root true := Or.inl ⟨rfl, rfl⟩
  have g := go_pi (is := []) (fs := []) (n := 0) (o := true) hu hc (xml_name hu) ha hw post
  have he : str "<?" ++ str "xml" ++ attrsText as ++ ws ++ str "?>" ++ post = declText as ws ++ post := by simp [declText, str]
  rw [he] at g
  generalize declText as ws ++ post = t at g hn
  obtain ⟨q, k1, k2, k3⟩ := g t 0 rfl (Nat.zero_le _)
  obtain ⟨B, c', i1, i2, i3⟩ := k3 (⟨⟨.root, []⟩, []⟩ : BState Nat XL XA) [] rfl (cok_nil _)
  obtain ⟨⟨l, ks⟩, up⟩ := B
  have hfr := i1
  simp only [frs, BState.frames, List.map_cons, conv, List.map_nil, List.nil_append, List.cons.injEq, Prod.mk.injEq, List.map_eq_nil_iff] at hfr
  obtain ⟨⟨rfl, hks⟩, rfl⟩ := hfr
  obtain ⟨ms, hm⟩ := fgoes_has i3 n hn
  refine ⟨ks, ms, hm, ?_⟩
  rw [nodes_its] at hks
  have := congrArg (List.map unvit) hks
  rw [map_unvit] at this
  rw [this]
  rfl

theorem decl_found (hu : u.Ascii) {as : List Attr} {ws post w : List Nat} (ha : ∀ a ∈ as, a.ok u) (hw : Ws ws) (hd : ∀ a ∈ as, a.double = true)
    (h : Declares as w) (n : Nat) (hn : RB.Finished (lang u) .root (declText as ws ++ post) n) :
    findEncoding (buildTree (lang u) .root (declText as ws ++ post) 0 n) = some w := by
  obtain ⟨cs, ms, h1, h2⟩ := decl_tree hu ha hw n hn
  rw [h1]
  show ((cs ++ ms).flatMap piEncs).head? = _
  rw [pis_view, views_append, h2]
  simp only [List.cons_append, List.nil_append, List.flatMap_cons, vPi]
  have := encs_decl h hd (spaceView ws ++ [.tok (str "?>") .ppEnd])
  rw [← List.append_assoc] at this
  rw [List.head?_append, this]
  rfl

theorem encs_none : ∀ (vs : List V), (∀ v ∈ vs, Quiet v) → vEncs vs = [] := by
  intro vs h
  have := encs_quiet vs [] h
  rw [List.append_nil] at this
  rw [this]
  rfl

theorem item_none {i : Item} (h : ∀ n as ws, i = .pi n as ws → ∀ a ∈ as, a.name ≠ str "encoding") : i.view.flatMap vPi = [] := by
  cases i with
  | pi n as ws =>
    simp only [Item.view, List.flatMap_cons, vPi, List.flatMap_nil, List.append_nil, List.nil_append]
    refine encs_none _ (fun v hv => ?_)
    simp only [List.mem_append, List.mem_singleton] at hv
    rcases hv with (hv | hv) | rfl
    · exact quiet_attrs (h n as ws rfl) v hv
    · exact quiet_space _ v hv
    · exact quiet_act (by decide)
  | empty n as ws => by_cases h : as = [] <;> simp [Item.view, tagEnd, vPi, h]
  | elem n as ws l ws' => by_cases h : as = [] <;> simp [Item.view, tagEnd, vPi, h]
  | text w => rfl
  | ref w => rfl
  | comment w => rfl
  | cdata w => rfl

theorem items_none : ∀ (c : List Item), NoEncoding c → (itemsView c).flatMap vPi = []
  | [], _ => rfl
  | i :: c, h => by
    simp only [itemsView, List.flatMap_append]
    rw [item_none (fun n as ws hi => h n as ws (by simp [hi])), items_none c (fun n as ws hi => h n as ws (by simp [hi]))]
    rfl

end Parce.Xml
