import Verif.Lemmas.TransformTree
import Verif.Props.Lexer
import Verif.Props.Tree
/-!
# C47 – C49: transforming
-/
namespace Parce
variable {α L A R G N I ρ : Type}

/-! ## C47: transforming text -/

section
variable [DecidableEq G] (env : TrEnv α L A R G N)

/-- **C47** (partial). Transforming a list of events that the lexer can yield has the value of the
    tree built from the same events, when every context in which the text ends has a method. The
    missing part does not hold: the text must not end in a context without a method
    (`C47_violated_end`), and when a method wants untransformed contexts, there must be none
    (`C47_violated_untransformed`). -/
theorem C47_events_partial (hU : NoRaw env) (root : L) (es : List (Event α L A)) (hk : KeepsRoot [root] es)
    (hne : ∀ e ∈ es, e.lexemes ≠ []) (hend : env.meth root = none ∨ ∀ l ∈ replayStack [root] es, env.meth l ≠ none) :
    transformEvents env root es = .ok (env.value (buildEvents root es)) := by
  unfold transformEvents
  cases hm : env.meth root with
  | none =>
    rw [event_root_value env root es hk hm]
    have : env.find (env.language root) (env.name root) = none := hm
    rw [this]
  | some m =>
    have : env.find (env.language root) (env.name root) = some m := hm
    rw [this]
    simp only
    have hlexs := foldl_lexs es ⟨⟨root, []⟩, []⟩ hk
    rcases txEvents_spec hU es.length (s := ⟨env.language root, ⟨root, []⟩, [], m.addU⟩) (b := ⟨⟨root, []⟩, []⟩) es
      ⟨⟨m, hm, rfl, by simp [itmL]⟩, trivial⟩ hk hne (Nat.le_refl _) with ⟨s', h1, h2⟩ | ⟨h1, l, hl, hl'⟩
    · rw [h1]
      have hr : (es.foldl BState.event ⟨⟨root, []⟩, []⟩).lexs.getLast? = some root := by
        rw [hlexs]; exact keepsRoot_root _ _ hk
      have := TxRel.unwind m _ h2 (close_lexs_value env _ root hr m hm)
      rw [show env.value (buildEvents root es) = _ from this]
      rfl
    · exfalso
      rcases hend with h | h
      · rw [hm] at h; cases h
      · rw [hlexs] at hl
        exact h l hl hl'

/-- **C47.** And in the other case it raises IndexError. -/
theorem C47_events_index (hU : NoRaw env) (root : L) (es : List (Event α L A)) (hk : KeepsRoot [root] es)
    (hne : ∀ e ∈ es, e.lexemes ≠ []) (hroot : env.meth root ≠ none) (l : L) (hl : l ∈ replayStack [root] es)
    (hl' : env.meth l = none) : transformEvents env root es = .error .index := by
  unfold transformEvents
  obtain ⟨m, hm⟩ := Option.ne_none_iff_exists'.1 hroot
  have : env.find (env.language root) (env.name root) = some m := hm
  rw [this]
  simp only
  have hlexs := foldl_lexs es ⟨⟨root, []⟩, []⟩ hk
  rcases txEvents_spec hU es.length (s := ⟨env.language root, ⟨root, []⟩, [], m.addU⟩) (b := ⟨⟨root, []⟩, []⟩) es
    ⟨⟨m, hm, rfl, by simp [itmL]⟩, trivial⟩ hk hne (Nat.le_refl _) with ⟨s', h1, h2⟩ | ⟨h1, _⟩
  · rw [show [root] = (BState.lexs (⟨⟨root, []⟩, []⟩ : BState α L A)) from rfl, ← hlexs] at hl
    exact absurd hl' (h2.lexs l hl)
  · rw [h1]; rfl

end

/-! ## C48: transforming a tree with a cache -/

section
variable [DecidableEq G] [DecidableEq I] (env : TrEnv α L A R G N) (ident : List Nat → I)

/-- **C48.** With any cache that is right, and any interruption: when the transform ends, it gives
    the value of the tree, and the cache is right; it only stops before that when it is interrupted,
    and also then the cache is right. -/
theorem C48_cached (intr : Nat → Bool) (cache : I → Option R) (l : L) (cs : List (Node α L A))
    (hd : Distinct ident (.ctx l cs)) (hc : CacheOK env ident cache (.ctx l cs)) :
    CacheOK env ident (transformTree env ident intr cache l cs).2 (.ctx l cs) ∧
    ((transformTree env ident intr cache l cs).1 = .done (env.value (.ctx l cs)) ∨
     (transformTree env ident intr cache l cs).1 = .interrupted ∧ ∃ k, intr k = true) := by
  unfold transformTree
  cases hm : env.meth l with
  | none =>
    have : env.find (env.language l) (env.name l) = none := hm
    rw [this]
    exact ⟨hc, Or.inl (by simp [TrEnv.value, hm])⟩
  | some m =>
    have : env.find (env.language l) (env.name l) = some m := hm
    rw [this]
    simp only
    obtain ⟨out, cache', h1, h2, h3⟩ := trLoop_spec env ident (.ctx l cs) l m cs hd intr (2 * sizeL cs + 1) (env.language l) cache []
      ⟨l, []⟩ m.addU 0 cs [] [] (by simp [itmL]) rfl ⟨rfl, rfl, rfl, rfl, rfl⟩ hc (by simp [trWork])
    rw [h1]
    rcases h3 with h3 | ⟨h3, h4⟩ <;> subst h3
    · exact ⟨h2, Or.inl (by simp [TrEnv.value, hm])⟩
    · exact ⟨h2, Or.inr ⟨rfl, h4⟩⟩

/-- **C48.** Without interruption, transforming with a right cache is transforming without one. -/
theorem C48_fresh (cache : I → Option R) (l : L) (cs : List (Node α L A)) (hd : Distinct ident (.ctx l cs))
    (hc : CacheOK env ident cache (.ctx l cs)) :
    (transformTree env ident (fun _ => false) cache l cs).1 = .done (env.value (.ctx l cs)) ∧
    (transformTree env ident (fun _ => false) cache l cs).1 =
      (transformTree env ident (fun _ => false) (fun _ => none) l cs).1 := by
  have h1 : (transformTree env ident (fun _ => false) cache l cs).1 = .done (env.value (.ctx l cs)) := by
    rcases (C48_cached env ident (fun _ => false) cache l cs hd hc).2 with h | ⟨_, k, hk⟩
    · exact h
    · cases hk
  have h2 : (transformTree env ident (fun _ => false) (fun _ => none) l cs).1 = .done (env.value (.ctx l cs)) := by
    rcases (C48_cached env ident (fun _ => false) (fun _ => none) l cs hd (fun _ _ _ _ _ _ h => by cases h)).2 with h | ⟨_, k, hk⟩
    · exact h
    · cases hk
  exact ⟨h1, by rw [h1, h2]⟩

/-- **C48.** `process` publishes nothing or the right value; the cache stays right. -/
theorem C48_process (intr : Nat → Bool) (late : Bool) (cache : I → Option R) (l : L) (cs : List (Node α L A))
    (hd : Distinct ident (.ctx l cs)) (hc : CacheOK env ident cache (.ctx l cs)) :
    ((trProcess env ident intr late cache l cs).1 = none ∨
      (trProcess env ident intr late cache l cs).1 = some (env.value (.ctx l cs))) ∧
    CacheOK env ident (trProcess env ident intr late cache l cs).2 (.ctx l cs) ∧
    (late = true → (trProcess env ident intr late cache l cs).1 = none) := by
  unfold trProcess
  obtain ⟨h1, h2⟩ := C48_cached env ident intr cache l cs hd hc
  revert h1 h2
  rcases transformTree env ident intr cache l cs with ⟨out, c⟩
  intro h1 h2
  simp only at h1 h2
  rcases h2 with h2 | ⟨h2, _⟩ <;> subst h2 <;> cases late <;> simp [h1]

omit [DecidableEq G] in
/-- **C48.** After an edit the cache is right for the new tree, when every context of the new tree
    is one that was in the old tree with the same contents, or was never transformed, or is one of
    those invalidated, and the invalidation went well. -/
theorem C48_invalidate (ident' : List Nat → I) (cache : I → Option R) (ids : List I) (old new : Node α L A)
    (hc : CacheOK env ident cache old)
    (hn : ∀ p l cs, p ≠ [] → new.at p = some (.ctx l cs) → ident' p ∈ ids ∨ cache (ident' p) = none ∨
      ∃ q, q ≠ [] ∧ old.at q = some (.ctx l cs) ∧ ident q = ident' p)
    (hok : (invalidate ids cache).1 = true) : CacheOK env ident' (invalidate ids cache).2 new := by
  intro p l cs r hp hat hr
  obtain ⟨h1, h2⟩ := invalidate_spec ids cache hok (ident' p) r hr
  rcases hn p l cs hp hat with h | h | ⟨q, hq, hatq, hid⟩
  · exact absurd h h1
  · rw [h2] at h; cases h
  · exact hc q l cs r hq hatq (by rw [hid]; exact h2)

end

/-- **C47** (partial). `transform_text` gives what a transform of the tree of the text gives. -/
theorem C47_text_partial [DecidableEq α] [DecidableEq G] [DecidableEq I] (env : TrEnv α L A R G N) (hU : NoRaw env)
    (lang : Lang α L A ρ) (root : L) (t : List α) (pos n : Nat) (ident : List Nat → I)
    (hd : Distinct ident (buildTree lang root t pos n))
    (hend : env.meth root = none ∨
      ∀ l ∈ replayStack [root] (lexRun lang t n (LState.start [root] pos)).1, env.meth l ≠ none) :
    ∃ r, transformText env lang root t pos n = .ok r ∧
      (transformTree env ident (fun _ => false) (fun _ => none) root (buildTree lang root t pos n).kids).1 = .done r := by
  have hcs : buildTree lang root t pos n = .ctx root (buildTree lang root t pos n).kids :=
    buildEvents_root root _ (C18_root_kept lang t [root] (by simp) pos n).1
  refine ⟨_, C47_events_partial env hU root _ (C18_root_kept lang t [root] (by simp) pos n).1
    (C22_lexemes_ne lang t [root] pos n) hend, ?_⟩
  rw [hcs] at hd
  rw [(C48_fresh env ident _ root _ hd (fun _ _ _ _ _ _ h => by cases h)).1, ← hcs]
  rfl

/-! A small environment: lexicons 0 and 1 have methods, which count; lexicon 2 has none. -/

def exEnv (u : Bool) : TrEnv Nat Nat Unit Nat Unit Nat where
  language _ := ()
  name l := l
  find _ l := if l = 2 then none else some ⟨fun il => 100 * (l + 1) + il.elems.length, u⟩

def exEv (tg : Option (Target Nat)) (pos : Nat) : Event Nat Nat Unit := ⟨tg, [⟨pos, [7], ()⟩]⟩

/-- Enter 1, leave it for 2, enter 1 there, leave both. -/
def exEvs : List (Event Nat Nat Unit) :=
  [exEv none 0, exEv (some ⟨0, [1]⟩) 1, exEv (some ⟨1, [2]⟩) 2, exEv (some ⟨0, [1]⟩) 3, exEv (some ⟨2, []⟩) 4]

example : NoRaw (exEnv false) ∧ KeepsRoot [0] exEvs ∧ (∀ e ∈ exEvs, e.lexemes ≠ []) ∧
    (∀ l ∈ replayStack [0] exEvs, (exEnv false).meth l ≠ none) ∧
    transformEvents (exEnv false) 0 exEvs = .ok (some 103) := by
  refine ⟨Or.inl ?_, by simp [KeepsRoot, exEvs, exEv, applyOpt, Target.apply], by decide, by decide, rfl⟩
  intro l m h
  simp only [TrEnv.meth, exEnv] at h
  split at h
  · cases h
  · cases h; rfl

/-- **C47 does not hold.** The text ends in a context without a method: the tree has a value, but
    `transform_text` raises IndexError. -/
theorem C47_violated_end :
    transformEvents (exEnv false) 0 [exEv none 0, exEv (some ⟨0, [2]⟩) 1] = .error .index ∧
    (exEnv false).value (buildEvents 0 [exEv none 0, exEv (some ⟨0, [2]⟩) 1]) = some 101 :=
  ⟨rfl, rfl⟩

/-- **C47 does not hold** for a transform that wants untransformed contexts: leaving the context
    also leaves the parent. In the root that is an IndexError; deeper there is another value. -/
theorem C47_violated_untransformed :
    transformEvents (exEnv true) 0 [exEv none 0, exEv (some ⟨0, [2]⟩) 1, exEv none 2, exEv (some ⟨1, []⟩) 3] = .error .index ∧
    (exEnv true).value (buildEvents 0 [exEv none 0, exEv (some ⟨0, [2]⟩) 1, exEv none 2, exEv (some ⟨1, []⟩) 3]) = some 103 ∧
    transformEvents (exEnv true) 0 [exEv (some ⟨0, [1]⟩) 0, exEv (some ⟨0, [2]⟩) 1, exEv none 2, exEv (some ⟨1, []⟩) 3]
      = .ok (some 102) ∧
    (exEnv true).value (buildEvents 0 [exEv (some ⟨0, [1]⟩) 0, exEv (some ⟨0, [2]⟩) 1, exEv none 2, exEv (some ⟨1, []⟩) 3])
      = some 101 :=
  ⟨rfl, rfl, rfl, rfl⟩

/-- With paths as identities all contexts are distinct. -/
example (root : Node Nat Nat Unit) : Distinct (fun p => p) root := fun _ _ _ _ _ _ _ _ _ _ h => h

/-- A cache with one right entry, that is used. -/
example : CacheOK (exEnv false) (fun p => p) (fun p => if p = [0] then some 200 else none) (.ctx 0 [.ctx 1 [], .ctx 1 []]) ∧
    (transformTree (exEnv false) (fun p => p) (fun _ => false) (fun p => if p = [0] then some 200 else none) 0
      [.ctx 1 [], .ctx 1 []]).1 = .done (some 102) ∧
    (transformTree (exEnv false) (fun p => p) (fun k => k == 1) (fun _ => none) 0 [.ctx 1 [], .ctx 1 []]).1 = .interrupted := by
  refine ⟨?_, by decide, by decide⟩
  intro p l cs r hp hat hr
  simp only at hr
  split at hr
  · next h =>
    subst h
    simp only [Node.at, Node.kids, List.getElem?_cons_zero] at hat
    cases hat
    cases hr
    rfl
  · cases hr

/-- **C48 does not hold** for the invalidation: when the node itself was never transformed (it has
    no method, say), KeyError leaves the entries of its ancestors, which are not right any more. -/
theorem C48_violated_invalidate :
    (invalidate [[0, 0], [0]] (fun p => if p = [0] then some 201 else none)).1 = false ∧
    (invalidate [[0, 0], [0]] (fun p => if p = [0] then some 201 else none)).2 [0] = some 201 ∧
    (exEnv true).value (.ctx 1 [.ctx 2 [.tok ⟨0, [7], (), none⟩], .tok ⟨1, [7], (), none⟩]) ≠ some 201 := by
  decide

example : (invalidate [[0, 0], [0]] (fun p => if p = [0] ∨ p = [0, 0] then some 201 else none)).1 = true := by decide

/-! ## C49: item lists -/

/-- **C49.** The groups come from a division of the named objects, in order, into parts; no object
    is lost. In every part the names are in the order of the argument, each at most once, and a new
    part is only started when needed. -/
theorem C49_grouped [DecidableEq N] (names : List N) (items : List (N × R)) :
    ∃ parts, groupedObjects names items = parts.map (fillGroup names.length) ∧
      parts.flatten.map (fun p => (names[p.1]?, p.2)) =
        (items.filter (fun p => decide (p.1 ∈ names))).map (fun p => (some p.1, p.2)) ∧
      (∀ p ∈ parts, p ≠ [] ∧ Ascends p) ∧ Breaks parts := by
  obtain ⟨parts, h1, h2, h3, h4, _⟩ := groupLoopI_spec names items [] List.Pairwise.nil
  rw [fillGroup_nil] at h1
  refine ⟨parts, h1, ?_, h3, h4⟩
  rw [h2, List.nil_append]
  clear h1 h2
  induction items with
  | nil => rfl
  | cons x items ih =>
    obtain ⟨i1, i2⟩ := nameIndex_spec names x.1
    cases hk : nameIndex names x.1 with
    | none =>
      have : x.1 ∉ names := i2.1 hk
      simpa [selected, hk, this] using ih
    | some k =>
      have hin : x.1 ∈ names := by
        by_cases h : x.1 ∈ names
        · exact h
        · rw [i2.2 h] at hk; cases hk
      have := i1 k hk
      simp only [selected, List.filterMap_cons, hk, Option.map_some, List.map_cons, this, List.filter_cons, hin, decide_true,
        if_true]
      rw [← ih]
      rfl

example : groupedObjects ["a", "b"] [("a", 1), ("x", 2), ("b", 3), ("b", 4), ("a", 5)] =
    [[some 1, some 3], [none, some 4], [some 5, none]] := by decide

/-- **C49.** `peek` holds exactly when the values are found at the index. -/
theorem C49_peek {V : Type} [DecidableEq V] (actV : A → V) (nameV : N → V) (rawName : N) (xs : List (TItm α L A R N))
    (index : Int) (values : List V) :
    peek actV nameV rawName xs index values = true ↔
      ∃ pre post, xs.map (TItm.peekV actV nameV rawName) = pre ++ values ++ post ∧
        (pre.length : Int) = if index < 0 then index + xs.length else index := by
  unfold peek
  simp only
  generalize hi : (if index < 0 then index + (xs.length : Int) else index) = i
  by_cases h0 : i < 0
  · rw [if_pos h0]
    constructor
    · intro h; cases h
    · rintro ⟨pre, post, _, h⟩; omega
  · rw [if_neg h0]
    obtain ⟨j, rfl⟩ := Int.eq_ofNat_of_zero_le (by omega : 0 ≤ i)
    simp only [Int.toNat_natCast]
    by_cases h1 : j + values.length > xs.length
    · rw [if_pos h1]
      constructor
      · intro h; cases h
      · rintro ⟨pre, post, h, h'⟩
        have := congrArg List.length h
        simp only [List.length_map, List.length_append] at this
        omega
    · rw [if_neg h1]
      simp only [beq_iff_eq, slice, List.map_drop, List.map_take]
      constructor
      · intro h
        refine ⟨(xs.map (TItm.peekV actV nameV rawName)).take j, (xs.map (TItm.peekV actV nameV rawName)).drop (j + values.length), ?_,
          by simp; omega⟩
        rw [List.drop_take, Nat.add_sub_cancel_left] at h
        conv => lhs; rw [← List.take_append_drop j (xs.map _)]
        rw [List.append_assoc]
        congr 1
        rw [← List.drop_drop]
        conv => lhs; rw [← List.take_append_drop values.length (List.drop j _)]
        rw [h]
      · rintro ⟨pre, post, h, h'⟩
        have h' : pre.length = j := by omega
        subst h'
        rw [h]
        simp [List.drop_take]

example : peek (fun a : Nat => a) (fun n : Nat => 10 + n) 99 [TItm.tok (⟨0, [1], 4, none⟩ : TokN Nat Nat), .item 3 (0 : Nat),
    (.raw (.ctx (0 : Nat) []))] (-2) [13, 109] = true := by decide

end Parce
