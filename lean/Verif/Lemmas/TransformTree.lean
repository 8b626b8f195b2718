import Verif.Lemmas.Walk
import Verif.Lemmas.Build
import Verif.Props.Lexer
import Verif.Lemmas.Transform
/-!
# Lemmas for transforming trees with a cache, and for item lists
-/
namespace Parce
variable {α L A R G N I : Type}

theorem ItemList.add_nil (il : ItemList α L A R N) : il.add [] = il := by
  cases il; simp [ItemList.add]

theorem ItemList.add_add (il : ItemList α L A R N) (a b : List (TItm α L A R N)) : (il.add a).add b = il.add (a ++ b) := by
  simp [ItemList.add]

theorem at_child {root : Node α L A} {p : List Nat} {c : L} {pre rest : List (Node α L A)} {n : Node α L A}
    (h : root.at p = some (.ctx c (pre ++ n :: rest))) : root.at (p ++ [pre.length]) = some n := by
  rw [at_append, h]
  simp [Node.at, Node.kids]

theorem sizeL_append (a b : List (Node α L A)) : sizeL (a ++ b) = sizeL a + sizeL b := by
  induction a with
  | nil => simp [sizeL]
  | cons n ns ih => simp [sizeL, ih]; omega

theorem trFor_spec [DecidableEq G] (env : TrEnv α L A R G N) (ident : List Nat → I) (cache : I → Option R) (path : List Nat)
    (u : Bool) : (ns : List (Node α L A)) → (cur : G) → (items : ItemList α L A R N) → (i : Nat) →
    (∀ a l cs b, ns = a ++ .ctx l cs :: b → ∀ r, cache (ident (path ++ [i + a.length])) = some r →
      env.value (.ctx l cs) = some r) →
    ∃ cur' items' o, trFor env ident cache path u cur items i ns = (cur', items', o) ∧
      match o with
      | none => items' = items.add (itmL env u ns)
      | some (k, l, cs, m, rest) => env.meth l = some m ∧
          ∃ pre, ns = pre ++ .ctx l cs :: rest ∧ k = i + pre.length ∧ items' = items.add (itmL env u pre)
  | [], cur, items, i, _ => ⟨cur, items, none, rfl, by simp [itmL, ItemList.add_nil]⟩
  | .tok t :: ns, cur, items, i, h => by
    obtain ⟨cur', items', o, h1, h2⟩ := trFor_spec env ident cache path u ns cur (items.add [.tok t]) (i + 1)
      (fun a l cs b hm r hr => h (.tok t :: a) l cs b (by rw [hm]; rfl) r (by
        rw [show i + (Node.tok t :: a).length = i + 1 + a.length from by simp; omega]; exact hr))
    refine ⟨cur', items', o, h1, ?_⟩
    match o, h2 with
    | none, h2 => simpa [ItemList.add_add, itmL, Node.itm] using h2
    | some (k, l, cs, m, rest), ⟨h3, pre, h4, h6, h5⟩ =>
      exact ⟨h3, .tok t :: pre, by rw [h4]; rfl, by simp; omega, by simpa [ItemList.add_add, itmL, Node.itm] using h5⟩
  | .ctx l cs :: ns, cur, items, i, h => by
    simp only [trFor, look_eq]
    have lift : ∀ items1, items1 = items.add ((Node.ctx l cs).itm env u) →
        ∃ cur' items' o, trFor env ident cache path u (env.language l) items1 (i + 1) ns = (cur', items', o) ∧
        match o with
        | none => items' = items.add (itmL env u (.ctx l cs :: ns))
        | some (k, l', cs', m, rest) => env.meth l' = some m ∧
            ∃ pre, .ctx l cs :: ns = pre ++ .ctx l' cs' :: rest ∧ k = i + pre.length ∧ items' = items.add (itmL env u pre) := by
      intro items1 hi
      obtain ⟨cur', items', o, h1, h2⟩ := trFor_spec env ident cache path u ns (env.language l) items1 (i + 1)
        (fun a l' cs' b hm r hr => h (.ctx l cs :: a) l' cs' b (by rw [hm]; rfl) r (by
          rw [show i + (Node.ctx l cs :: a).length = i + 1 + a.length from by simp; omega]; exact hr))
      refine ⟨cur', items', o, h1, ?_⟩
      subst hi
      match o, h2 with
      | none, h2 => simpa [ItemList.add_add, itmL] using h2
      | some (k, l', cs', m, rest), ⟨h3, pre, h4, h6, h5⟩ =>
        exact ⟨h3, .ctx l cs :: pre, by rw [h4]; rfl, by simp; omega, by simpa [ItemList.add_add, itmL] using h5⟩
    cases hm : env.meth l with
    | none =>
      refine lift _ ?_
      simp only [Node.itm, hm]
      cases u <;> simp [ItemList.add_nil]
    | some m =>
      simp only
      cases hc : cache (ident (path ++ [i])) with
      | none => exact ⟨_, _, _, rfl, hm, [], rfl, rfl, by simp [itmL, ItemList.add_nil]⟩
      | some obj =>
        refine lift _ ?_
        have := h [] l cs ns rfl obj hc
        simp only [TrEnv.value, hm, Option.map_some, Option.some.injEq] at this
        simp only [Node.itm, hm, this]

/-! ## The loop -/

/-- The contexts that are being transformed: the current one, at `path`, has lexicon `c` and
    children `cs`. -/
def Zip (env : TrEnv α L A R G N) (root : Node α L A) (l0 : L) (rootM : Meth α L A R N) (cs0 : List (Node α L A)) :
    L → List (Node α L A) → Bool → List Nat → List (TrEntry α L A R N) → Prop
  | c, cs, u, p, [] => c = l0 ∧ cs = cs0 ∧ u = rootM.addU ∧ p = [] ∧ root.at p = some (.ctx c cs)
  | c, cs, u, p, e :: st => e.child = c ∧ env.meth c = some e.meth ∧ u = e.meth.addU ∧ root.at p = some (.ctx c cs) ∧
      ∃ pre, e.items.elems = itmL env e.addU pre ∧ p = e.parent ++ [pre.length] ∧ e.next = pre.length + 1 ∧
        Zip env root l0 rootM cs0 e.items.arg (pre ++ .ctx c cs :: e.rest) e.addU e.parent st

def trWork (ns : List (Node α L A)) (st : List (TrEntry α L A R N)) : Nat :=
  2 * sizeL ns + (st.map (fun e => 1 + 2 * sizeL e.rest)).sum

theorem Zip.at {env : TrEnv α L A R G N} {root : Node α L A} {l0 : L} {rootM : Meth α L A R N} {cs0 cs : List (Node α L A)}
    {c : L} {u : Bool} {p : List Nat} {st : List (TrEntry α L A R N)} (h : Zip env root l0 rootM cs0 c cs u p st) :
    root.at p = some (.ctx c cs) := by
  cases st with
  | nil => exact h.2.2.2.2
  | cons e st => exact h.2.2.2.1

theorem trLoop_spec [DecidableEq G] [DecidableEq I] (env : TrEnv α L A R G N) (ident : List Nat → I) (root : Node α L A) (l0 : L)
    (rootM : Meth α L A R N) (cs0 : List (Node α L A)) (hd : Distinct ident root) (intr : Nat → Bool) : (fuel : Nat) → (cur : G) →
    (cache : I → Option R) → (path : List Nat) → (items : ItemList α L A R N) → (u : Bool) → (i : Nat) →
    (ns : List (Node α L A)) → (st : List (TrEntry α L A R N)) → (pre : List (Node α L A)) → items.elems = itmL env u pre →
    i = pre.length → Zip env root l0 rootM cs0 items.arg (pre ++ ns) u path st → CacheOK env ident cache root →
    trWork ns st < fuel →
    ∃ out cache', trLoop env ident rootM intr fuel cur cache path items u i ns st = (out, cache') ∧
      CacheOK env ident cache' root ∧
      (out = .done (rootM.run ⟨l0, itmL env rootM.addU cs0⟩) ∨ out = .interrupted ∧ ∃ k, intr k = true)
  | 0, _, _, _, _, _, _, _, _, _, _, _, _, _, hf => absurd hf (by omega)
  | fuel + 1, cur, cache, path, items, u, i, ns, st, pre, hi, hidx, hz, hc, hf => by
    rw [trLoop]
    by_cases hin : intr fuel = true
    · rw [if_pos hin]
      exact ⟨_, _, rfl, hc, Or.inr ⟨rfl, fuel, hin⟩⟩
    · rw [if_neg hin]
      obtain ⟨cur', items', o, h1, h2⟩ := trFor_spec env ident cache path u ns cur items i (fun a l cs b hm r hr => by
        have hat : root.at (path ++ [(pre ++ a).length]) = some (.ctx l cs) :=
          at_child (c := items.arg) (rest := b) (by rw [hz.at, hm, List.append_assoc])
        refine hc _ l cs r (by simp) hat ?_
        rw [List.length_append, ← hidx]
        exact hr)
      rw [h1]
      match o, h2 with
      | some (k, l, cs, m, rest), ⟨h3, pre', h4, h6, h5⟩ =>
        simp only
        have hk : k = (pre ++ pre').length := by rw [List.length_append, ← hidx, h6]
        have hat : root.at (path ++ [k]) = some (.ctx l cs) := by
          rw [hk]
          exact at_child (c := items.arg) (rest := rest) (by rw [hz.at, h4, List.append_assoc])
        refine trLoop_spec env ident root l0 rootM cs0 hd intr fuel cur' cache _ ⟨l, []⟩ m.addU 0 cs _ [] (by simp [itmL]) rfl
          ⟨rfl, h3, rfl, hat, pre ++ pre', ?_, by rw [hk], by simp only [hk], ?_⟩ hc ?_
        · rw [h5]
          simp only [ItemList.add, hi, itmL_append]
        · rw [h5]
          simp only [ItemList.add]
          rw [h4] at hz
          simpa using hz
        · rw [h4] at hf
          simp only [trWork, List.map_cons, List.sum_cons, sizeL_append, sizeL, Node.size] at hf ⊢
          omega
      | none, h2 =>
        simp only
        have hfull : items' = ⟨items.arg, itmL env u (pre ++ ns)⟩ := by
          rw [h2, itmL_append, ← hi]
          rfl
        match st, hz, hf with
        | [], hz, hf =>
          obtain ⟨h3, h4, h5, _⟩ := hz
          exact ⟨_, _, rfl, hc, Or.inl (by rw [hfull, h3, h4, h5])⟩
        | e :: st, hz, hf =>
          obtain ⟨h3, h4, h5, h6, pre', h7, hp, hnext, h8⟩ := hz
          have hval : env.value (.ctx items.arg (pre ++ ns)) = some (e.meth.run items') := by
            simp only [TrEnv.value, h4, Option.map_some]
            rw [hfull, h5]
          refine trLoop_spec env ident root l0 rootM cs0 hd intr fuel cur' _ _ _ e.addU e.next e.rest st
            (pre' ++ [.ctx items.arg (pre ++ ns)]) ?_ (by simpa using hnext) ?_ ?_ ?_
          · simp only [TrEnv.value, h4, Option.map_some, Option.some.injEq, itmL_append] at hval
            simp only [ItemList.add, h7, itmL_append, itmL, Node.itm, h4, List.append_nil]
            rw [hval, h3]
          · simpa [ItemList.add] using h8
          · intro q l cs r hq hat hr
            simp only [setCache] at hr
            split at hr
            · next heq =>
              have := hd q path _ _ _ _ hq (by rw [hp]; simp) hat h6 heq
              subst this
              rw [hat] at h6
              cases h6
              cases hr
              exact hval
            · exact hc q l cs r hq hat hr
          · simp only [trWork, List.map_cons, List.sum_cons] at hf ⊢
            omega

/-! ## Invalidating -/

theorem invalidate_spec [DecidableEq I] : (ids : List I) → (cache : I → Option R) → (invalidate ids cache).1 = true →
    ∀ i r, (invalidate ids cache).2 i = some r → i ∉ ids ∧ cache i = some r
  | [], _, _, _, _, h => ⟨by simp, h⟩
  | j :: ids, cache, hok, i, r, h => by
    simp only [invalidate] at hok h
    cases hj : cache j with
    | none => simp [hj] at hok
    | some x =>
      simp only [hj] at hok h
      obtain ⟨h1, h2⟩ := invalidate_spec ids _ hok i r h
      split at h2
      · cases h2
      · next hne =>
        refine ⟨?_, h2⟩
        simp only [List.mem_cons, not_or]
        exact ⟨hne, h1⟩

/-! ## Item lists -/

theorem nameIndex_aux [DecidableEq N] (name : N) : (names : List N) → (k : Nat) → (r : Option Nat) →
    (∀ j, (names.zipIdx k).foldl (fun r p => if p.1 = name then some p.2 else r) r = some j →
      r = some j ∨ (k ≤ j ∧ names[j - k]? = some name)) ∧
    ((names.zipIdx k).foldl (fun r p => if p.1 = name then some p.2 else r) r = none ↔ r = none ∧ name ∉ names)
  | [], k, r => by simp
  | n :: names, k, r => by
    simp only [List.zipIdx_cons, List.foldl_cons]
    obtain ⟨h1, h2⟩ := nameIndex_aux name names (k + 1) (if n = name then some k else r)
    refine ⟨fun j hj => ?_, ?_⟩
    · rcases h1 j hj with h | ⟨h, h'⟩
      · split at h
        · next heq => cases h; exact Or.inr ⟨Nat.le_refl _, by simp [heq]⟩
        · exact Or.inl h
      · refine Or.inr ⟨by omega, ?_⟩
        rw [show j - k = (j - (k + 1)) + 1 from by omega, List.getElem?_cons_succ]
        exact h'
    · rw [h2]
      split
      · next heq => simp [heq]
      · next hne =>
        simp only [List.mem_cons, not_or]
        constructor
        · rintro ⟨h, h'⟩; exact ⟨h, fun h => hne h.symm, h'⟩
        · rintro ⟨h, _, h'⟩; exact ⟨h, h'⟩

/-- The position found has the name; a name is found when it is one of the names. -/
theorem nameIndex_spec [DecidableEq N] (names : List N) (name : N) :
    (∀ j, nameIndex names name = some j → names[j]? = some name) ∧ (nameIndex names name = none ↔ name ∉ names) := by
  obtain ⟨h1, h2⟩ := nameIndex_aux name names 0 none
  refine ⟨fun j hj => ?_, ?_⟩
  · rcases h1 j hj with h | ⟨_, h⟩
    · cases h
    · exact h
  · rw [show nameIndex names name = _ from rfl]
    exact h2.trans ⟨fun h => h.2, fun h => ⟨rfl, h⟩⟩

theorem fillGroup_nil (n : Nat) : fillGroup n ([] : List (Nat × R)) = List.replicate n none := by
  unfold fillGroup
  apply List.ext_getElem <;> simp

theorem fillGroup_snoc (n : Nat) (part : List (Nat × R)) (k : Nat) (r : R) (hk : ∀ p ∈ part, p.1 < k) :
    setGroup (fillGroup n part) k r = fillGroup n (part ++ [(k, r)]) := by
  unfold setGroup fillGroup
  apply List.ext_getElem
  · simp
  · intro i h1 h2
    rw [List.getElem_set]
    simp only [List.getElem_map, List.getElem_range, List.find?_append]
    split
    · next he =>
      subst he
      have hn : part.find? (fun p => p.1 == k) = none := by
        rw [List.find?_eq_none]
        intro p hp
        have := hk p hp
        simp; omega
      rw [hn]
      simp
    · next hne =>
      cases part.find? (fun p => p.1 == i) with
      | some p => simp
      | none =>
        have : ((k == i) = false) := by simpa using hne
        simp [this]

/-- The objects of the named items with their positions. -/
def selected [DecidableEq N] (names : List N) (items : List (N × R)) : List (Nat × R) :=
  items.filterMap (fun p => (nameIndex names p.1).map (fun k => (k, p.2)))

theorem groupLoopI_spec [DecidableEq N] (names : List N) : (items : List (N × R)) → (part : List (Nat × R)) → Ascends part →
    ∃ parts, groupLoopI names (fillGroup names.length part) (part.getLast?.map (·.1)) items = parts.map (fillGroup names.length) ∧
      parts.flatten = part ++ selected names items ∧ (∀ p ∈ parts, p ≠ [] ∧ Ascends p) ∧ Breaks parts ∧
      (part ≠ [] → ∃ q ps, parts = (part ++ q) :: ps)
  | [], part, ha => by
    simp only [groupLoopI]
    cases hp : part.getLast? with
    | none =>
      have : part = [] := by simpa using hp
      subst this
      exact ⟨[], by simp, by simp [selected], by simp, trivial, fun h => absurd rfl h⟩
    | some x =>
      have hne : part ≠ [] := by intro h; simp [h] at hp
      exact ⟨[part], by simp, by simp [selected], by simpa using ⟨hne, ha⟩, trivial, fun _ => ⟨[], [], by simp⟩⟩
  | (name, obj) :: items, part, ha => by
    simp only [groupLoopI]
    cases hk : nameIndex names name with
    | none =>
      obtain ⟨parts, h1, h2, h3⟩ := groupLoopI_spec names items part ha
      exact ⟨parts, h1, by rw [h2]; simp [selected, hk], h3⟩
    | some k =>
      have hsel : selected names ((name, obj) :: items) = (k, obj) :: selected names items := by simp [selected, hk]
      have lift : ∀ part', (∀ p ∈ part', p.1 < k) → Ascends part' → 
          ∃ parts, groupLoopI names (setGroup (fillGroup names.length part') k obj) (some k) items =
            parts.map (fillGroup names.length) ∧ parts.flatten = part' ++ selected names ((name, obj) :: items) ∧
            (∀ p ∈ parts, p ≠ [] ∧ Ascends p) ∧ Breaks parts ∧ ∃ q ps, parts = (part' ++ (k, obj) :: q) :: ps := by
        intro part' hlt ha'
        obtain ⟨parts, h1, h2, h3, h4, h5⟩ := groupLoopI_spec names items (part' ++ [(k, obj)]) (by
          unfold Ascends
          rw [List.pairwise_append]
          refine ⟨ha', by simp, ?_⟩
          intro a ha b hb
          rw [List.mem_singleton.1 hb]
          exact hlt a ha)
        rw [← fillGroup_snoc _ _ _ _ hlt] at h1
        simp only [List.getLast?_concat, Option.map_some] at h1
        obtain ⟨q, ps, h6⟩ := h5 (by simp)
        exact ⟨parts, h1, by rw [h2, hsel]; simp, h3, h4, q, ps, by rw [h6]; simp⟩
      cases hp : part.getLast? with
      | none =>
        have : part = [] := by simpa using hp
        subst this
        obtain ⟨parts, h1, h2, h3, h4, h5⟩ := lift [] (by simp) ha
        exact ⟨parts, by simpa using h1, h2, h3, h4, fun h => absurd rfl h⟩
      | some x =>
        have hne : part ≠ [] := by intro h; simp [h] at hp
        simp only [Option.map_some]
        by_cases hle : k ≤ x.1
        · rw [if_pos (by simpa using hle)]
          obtain ⟨parts, h1, h2, h3, h4, q, ps, h5⟩ := lift [] (by simp) List.Pairwise.nil
          rw [fillGroup_nil] at h1
          refine ⟨part :: parts, by rw [h1]; rfl, by rw [List.flatten_cons, h2]; rfl, ?_, ?_, fun _ => ⟨[], parts, by simp⟩⟩
          · intro p hp'
            rcases List.mem_cons.1 hp' with rfl | hp'
            · exact ⟨hne, ha⟩
            · exact h3 p hp'
          · subst h5
            exact ⟨⟨x, (k, obj), hp, rfl, hle⟩, h4⟩
        · rw [if_neg (by simpa using hle)]
          obtain ⟨parts, h1, h2, h3, h4, q, ps, h5⟩ := lift part (by
            intro p hp'
            obtain ⟨l, hl⟩ := List.getLast?_eq_some_iff.1 hp
            subst hl
            rcases List.mem_append.1 hp' with hp' | hp'
            · have := (List.pairwise_append.1 ha).2.2 p hp' x (by simp)
              omega
            · rw [List.mem_singleton.1 hp']; omega) ha
          exact ⟨parts, h1, h2, h3, h4, fun _ => ⟨_, ps, h5⟩⟩

/-! ## Roots -/

theorem foldl_lexs : (es : List (Event α L A)) → (b : BState α L A) → KeepsRoot b.lexs es →
    (es.foldl BState.event b).lexs = replayStack b.lexs es
  | [], _, _ => rfl
  | e :: es, b, h => by
    have he := (event_lexs e b h.1).1
    rw [List.foldl_cons, replayStack, foldl_lexs es _ (by rw [he]; exact h.2), he]

theorem close_lexs_value (env : TrEnv α L A R G N) (b : BState α L A) (root : L) (hr : b.lexs.getLast? = some root) (rootM : Meth α L A R N)
    (hm : env.meth root = some rootM) : ((b.cur :: b.up).getLast?).bind (fun f => env.meth f.lex) = some rootM := by
  have h : ((b.cur :: b.up).map (·.lex)).getLast? = some root := hr
  rw [List.getLast?_map] at h
  cases hl : (b.cur :: b.up).getLast? with
  | none => simp at hl
  | some f =>
    rw [hl] at h
    simp only [Option.map_some, Option.some.injEq] at h
    simp [h, hm]

theorem close_root (root : L) : (up : List (Frame α L A)) → (c : Frame α L A) → (BState.lexs ⟨c, up⟩).getLast? = some root →
    ∃ cs, BState.close ⟨c, up⟩ = .ctx root cs
  | [], c, h => ⟨c.kids, by simp [BState.lexs] at h; simp [BState.close, h]⟩
  | f :: up, c, h => by
    have := close_root root up ⟨f.lex, f.kids ++ [.ctx c.lex c.kids]⟩ (by
      cases up <;> simpa [BState.lexs, List.getLast?_cons_cons] using h)
    simpa [BState.close] using this

theorem buildEvents_root (root : L) (es : List (Event α L A)) (hk : KeepsRoot [root] es) :
    buildEvents root es = .ctx root (buildEvents root es).kids := by
  have h1 := foldl_lexs es ⟨⟨root, []⟩, []⟩ hk
  have h2 := keepsRoot_root _ _ hk
  rw [show [root] = (BState.lexs (⟨⟨root, []⟩, []⟩ : BState α L A)) from rfl, ← h1] at h2
  obtain ⟨cs, h⟩ := close_root root (es.foldl BState.event ⟨⟨root, []⟩, []⟩).up (es.foldl BState.event ⟨⟨root, []⟩, []⟩).cur h2
  rw [show buildEvents root es = .ctx root cs from h]
  rfl

theorem event_root_value (env : TrEnv α L A R G N) (root : L) (es : List (Event α L A)) (hk : KeepsRoot [root] es)
    (hn : env.meth root = none) : env.value (buildEvents root es) = none := by
  rw [buildEvents_root root es hk]
  simp [TrEnv.value, hn]

end Parce
