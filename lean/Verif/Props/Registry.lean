import Verif.Lemmas.Registry

/-
C58: looking up languages in the registry. C65: adding languages.
-/

namespace Parce.Reg

/-- **C58.** A language is looked up by name: the first entry with exactly this name; otherwise the first entry with
    exactly this alias; otherwise the first entry with this name or alias in upper or lower case; otherwise
    the first entry with this class name in upper or lower case. -/
theorem C58_qualname (lower : Str → Str) (r : Registry) (name : Str) (cls : Str → Str) (hr : ∀ x ∈ r, HasClass x.1 (cls x.1)) :
    qualname lower r name = .ok ((
      (r.find? (fun x => decide (x.2.name = name))) <|>
      (r.find? (fun x => decide (name ∈ x.2.aliases))) <|>
      (r.find? (fun x => (x.2.name :: x.2.aliases).any (fun a => lower a == lower name))) <|>
      (r.find? (fun x => decide (lower (cls x.1) = lower name)))).map (·.1)) := by
  unfold qualname
  rw [qualnameLoop_eq r [] [] [] (fun x hx => by rw [className_eq (hr x hx)]; rfl)]
  have e0 : r.find? (fun x => decide (x.2.name = name)) = r.find? (fun x => name == x.2.name) := by
    congr 1; funext x; rw [Bool.eq_iff_iff]; simp only [decide_eq_true_eq, beq_iff_eq]; exact ⟨Eq.symm, Eq.symm⟩
  have e1 : r.find? (fun x => decide (name ∈ x.2.aliases)) = r.find? (isAlias name) := rfl
  have e2 : r.find? (fun x => (x.2.name :: x.2.aliases).any (fun a => lower a == lower name)) = r.find? (isNocase lower name) := by
    congr 1; funext x; rw [Bool.eq_iff_iff, isNocase, List.any_cons, Bool.or_eq_true, decide_eq_true_eq, beq_iff_eq]
    exact ⟨fun h => h.imp Eq.symm id, fun h => h.imp Eq.symm id⟩
  have e3 : r.find? (fun x => decide (lower (cls x.1) = lower name)) = r.find? (isClass lower name) := by
    clear e0 e1 e2
    induction r with
    | nil => rfl
    | cons x r ih =>
      have : isClass lower name x = decide (lower (cls x.1) = lower name) := by
        simp only [isClass, className_eq (hr x (by simp)), Option.any_some]
        rw [Bool.eq_iff_iff]; simp only [decide_eq_true_eq, beq_iff_eq]; exact ⟨Eq.symm, Eq.symm⟩
      rw [List.find?_cons, List.find?_cons, this, ih (fun y hy => hr y (by simp [hy]))]
  rw [e0, e1, e2, e3]
  cases r.find? (fun x => name == x.2.name) with
  | some x => rfl
  | none =>
    simp only [List.nil_append, List.head?_append, List.head?_map, List.head?_filter]
    cases r.find? (isAlias name) with
    | some x => rfl
    | none =>
      cases r.find? (isNocase lower name) with
      | some x => rfl
      | none =>
        cases r.find? (isClass lower name) <;> rfl

example : ∃ (r : Registry) (cls : Str → Str), r.length = 2 ∧ (∀ x ∈ r, HasClass x.1 (cls x.1)) ∧
    qualname id r "css".toList = .ok (some "p.css.Css.root".toList) := by
  refine ⟨[("p.x.X.root".toList, ⟨"X".toList, "x".toList, [], [], [], [], [], []⟩),
    ("p.css.Css.root".toList, ⟨"CSS".toList, "x".toList, [], [], ["css".toList], [], [], []⟩)],
    fun q => if q = "p.x.X.root".toList then "X".toList else "Css".toList, rfl, ?_, rfl⟩
  intro x hx
  simp only [List.mem_cons, List.not_mem_nil, or_false] at hx
  rcases hx with rfl | rfl
  · exact ⟨"p.x".toList, "root".toList, by decide, by decide, by decide⟩
  · exact ⟨"p.css".toList, "root".toList, by decide, by decide, by decide⟩

/-- The weight of the contents: all guesses that are found in the first 5000 characters. -/
def contentsWeight (search : Str → Str → Bool) (e : Entry) (contents : Option Str) : Nat := match contents with
  | some c => ((e.guesses.filter (fun g => search g.1 (c.take 5000))).map (·.2)).sum
  | none => 0

/-- Which weights are given by the file name or mime type. -/
def Given (m : Str → Str → Bool) (l : List (Str × Nat)) (v : Option Str) (x : Nat) : Prop := match v with
  | some f => Largest (m f) l x
  | none => x = 0

/-- **C58.** The suggestions are the languages for which the file name (`fw`) or the mime type (`mw`) have some
    weight, heaviest first. If there are none, or if the heaviest have the same weight, the contents (`gw`) are
    looked at. Languages with the same weight keep their order: first those that have the file name,
    then those that only have the mime type, both in the order of the registry. -/
theorem C58_suggest (file search : Str → Str → Bool) (r : Registry) (filename mimetype contents : Option Str) (fw mw gw : Str → Nat)
    (hr : (r.map (·.1)).Nodup)
    (hf : ∀ x ∈ r, Given file x.2.filenames filename (fw x.1))
    (hm : ∀ x ∈ r, Given (fun m t => t == m) x.2.mimetypes mimetype (mw x.1))
    (hg : ∀ x ∈ r, gw x.1 = contentsWeight search x.2 contents) :
    let names := r.map (·.1)
    let cands := names.filter (fun n => fw n != 0) ++ names.filter (fun n => fw n == 0 && mw n != 0)
    let l := suggest file search r filename mimetype contents
    (Unique (fun n => fw n + mw n) cands → Ranking (fun n => fw n + mw n) cands l) ∧
    (cands ≠ [] → ¬ Unique (fun n => fw n + mw n) cands → Ranking (fun n => fw n + mw n + gw n) cands l) ∧
    (cands = [] → Ranking gw (names.filter (fun n => gw n != 0)) l) := by
  intro names cands l
  have hget : ∀ (sel : Entry → Nat) (f : Str → Nat), (∀ x ∈ r, sel x.2 = f x.1) → ∀ n ∈ names, ofEntry r sel n = f n := by
    intro sel f h n hn
    unfold ofEntry
    obtain ⟨⟨n', e⟩, h1, rfl⟩ := List.mem_map.1 hn
    rw [get?_mem r hr n' e h1]
    exact h _ h1
  have hw1 : addIf filename (fun f => ofEntry r (fun e => best (file f) e.filenames)) names [] = table (names.filter (fun n => fw n != 0)) (fun n => if n ∈ names then fw n else 0) := by
    have h0 : ([] : Weights) = table [] (fun _ => 0) := rfl
    have key : addAll fw names [] = table (names.filter (fun n => fw n != 0)) (fun n => if n ∈ names then fw n else 0) := by
      rw [h0, addAll_table fw names [] (fun _ => 0) hr (fun _ _ => rfl)]
      simp
    cases filename with
    | none =>
      rw [addIf, ← key]
      rw [addAll_congr (f' := fun _ => 0) names (fun n hn => ?_), addAll_zero]
      obtain ⟨x, hx, rfl⟩ := List.mem_map.1 hn
      exact hf x hx
    | some f =>
      rw [← key]
      exact addAll_congr names (hget _ _ (fun x hx => (best_largest _ _).unique (hf x hx))) _
  have hw2 : ∀ w1 : Weights, w1 = table (names.filter (fun n => fw n != 0)) (fun n => if n ∈ names then fw n else 0) → 
      addIf mimetype (fun m => ofEntry r (fun e => best (fun t => t == m) e.mimetypes)) names w1 = table cands (fun n => if n ∈ names then fw n + mw n else 0) := by
    intro w1 hw1
    have key : addAll mw names w1 = table cands (fun n => if n ∈ names then fw n + mw n else 0) := by
      rw [hw1, addAll_table mw names _ _ hr]
      · have e1 : names.filter (fun n => mw n != 0 && !(names.filter (fun n => fw n != 0)).contains n) = names.filter (fun n => fw n == 0 && mw n != 0) := by
          apply List.filter_congr
          intro n hn
          rw [Bool.eq_iff_iff]
          simp [hn]
          exact And.comm
        rw [e1]
        apply table_congr
        intro n hn
        by_cases h : n ∈ names <;> simp [h]
      · intro n hn
        by_cases h : n ∈ names
        · simp [h] at hn ⊢; exact hn
        · simp [h]
    cases mimetype with
    | none =>
      rw [addIf, ← key, addAll_congr (f' := fun _ => 0) names (fun n hn => ?_), addAll_zero]
      obtain ⟨x, hx, rfl⟩ := List.mem_map.1 hn
      exact hm x hx
    | some m =>
      rw [← key]
      exact addAll_congr names (hget _ _ (fun x hx => (best_largest _ _).unique (hm x hx))) _
  have hcn : ∀ n ∈ cands, n ∈ names := by
    intro n hn
    simp only [cands, List.mem_append, List.mem_filter] at hn
    rcases hn with hn | hn <;> exact hn.1
  have hnd : cands.Nodup := by
    rw [List.nodup_append]
    refine ⟨hr.sublist List.filter_sublist, hr.sublist List.filter_sublist, ?_⟩
    intro a ha b hb e
    subst e
    simp at ha hb
    exact ha.2 hb.2.1
  have hgw : ∀ (ns : List Str) (w : Weights), (∀ n ∈ ns, n ∈ names) → 
      ranked (addIf contents (fun c => ofEntry r (fun e => ((e.guesses.filter (fun g => search g.1 (c.take 5000))).map (·.2)).sum)) ns w) =
        ranked (addAll gw ns w) := by
    intro ns w hns
    cases contents with
    | none =>
      rw [addIf, addAll_congr (f' := fun _ => 0) ns (fun n hn => ?_), addAll_zero]
      obtain ⟨x, hx, rfl⟩ := List.mem_map.1 (hns n hn)
      exact hg x hx
    | some c =>
      rw [addIf, addAll_congr ns (fun n hn => hget _ _ (fun x hx => ?_) n (hns n hn))]
      rw [hg x hx]; rfl
  have hl : l = match ranked (table cands (fun n => if n ∈ names then fw n + mw n else 0)) with
      | [] => ranked (addAll gw names (table cands (fun n => if n ∈ names then fw n + mw n else 0)))
      | [n] => [n]
      | a :: b :: l => if wget (table cands (fun n => if n ∈ names then fw n + mw n else 0)) b <
            wget (table cands (fun n => if n ∈ names then fw n + mw n else 0)) a then a :: b :: l
          else ranked (addAll gw (a :: b :: l) (table cands (fun n => if n ∈ names then fw n + mw n else 0))) := by
    have hmem := (ranked_ranking cands (fun n => if n ∈ names then fw n + mw n else 0)).mem
    show suggest file search r filename mimetype contents = _
    unfold suggest
    simp only
    rw [hw1, hw2 _ rfl]
    cases hrk : ranked (table cands (fun n => if n ∈ names then fw n + mw n else 0)) with
    | nil => simp only; exact hgw names _ (fun n hn => hn)
    | cons a t =>
      cases t with
      | nil => rfl
      | cons b t =>
        simp only
        rw [hgw (a :: b :: t) _ (fun n hn => hcn n ((hmem n).1 (by rw [hrk]; exact hn)))]
  have hrank := ranked_ranking cands (fun n => if n ∈ names then fw n + mw n else 0)
  have hrank' := hrank.congr (g' := fun n => fw n + mw n) (fun n hn => by rw [if_pos (hcn n hn)])
  cases hrk : ranked (table cands (fun n => if n ∈ names then fw n + mw n else 0)) with
  | nil =>
    have hc := (ranked_nil _ _).1 hrk
    simp only [hrk] at hl
    refine ⟨?_, fun h => absurd hc h, fun _ => ?_⟩
    · rintro ⟨a, ha, _⟩; rw [hc] at ha; cases ha
    · rw [hl, hc, addAll_table gw names [] _ hr]
      · simp only [List.nil_append]
        have e1 : names.filter (fun n => gw n != 0 && !([] : List Str).contains n) = names.filter (fun n => gw n != 0) :=
          List.filter_congr (fun n _ => by simp)
        rw [e1]
        refine (ranked_ranking _ _).congr (fun n hn => ?_)
        have hn := (List.mem_filter.1 hn).1
        have h0 : fw n + mw n = 0 := by
          have : n ∉ cands := by rw [hc]; simp
          simp [cands, hn] at this
          omega
        simp [hn, h0]
      · intro n _
        by_cases hn : n ∈ names
        · have : n ∉ cands := by rw [hc]; simp
          simp [cands, hn] at this
          simp [hn]; omega
        · simp [hn]
  | cons a t =>
    have hc : cands ≠ [] := fun h => by rw [(ranked_nil _ _).2 h] at hrk; cases hrk
    cases t with
    | nil =>
      simp only [hrk] at hl
      rw [hrk] at hrank'
      refine ⟨fun _ => by rw [hl]; exact hrank', fun _ h => absurd hrank'.single h, fun h => absurd h hc⟩
    | cons b t =>
      simp only [hrk] at hl
      rw [hrk] at hrank hrank'
      have hu := hrank'.unique hnd
      have ha := hcn a ((hrank.mem a).1 (by simp))
      have hb := hcn b ((hrank.mem b).1 (by simp))
      rw [wget_table _ _ _ ((hrank.mem a).1 (by simp)), wget_table _ _ _ ((hrank.mem b).1 (by simp)), if_pos ha, if_pos hb] at hl
      refine ⟨fun h => ?_, fun _ h => ?_, fun h => absurd h hc⟩
      · rw [hl, if_pos (hu.2 h)]; exact hrank'
      · rw [hl, if_neg (fun h' => h (hu.1 h'))]
        rw [addAll_table gw (a :: b :: t) cands _ (hrank.nodup hnd)]
        · have e1 : (a :: b :: t).filter (fun n => gw n != 0 && !cands.contains n) = [] := by
            rw [List.filter_eq_nil_iff]
            intro n hn
            have := (hrank.mem n).1 hn
            simp [this]
          rw [e1, List.append_nil]
          refine (ranked_ranking _ _).congr (fun n hn => ?_)
          rw [if_pos ((hrank.mem n).2 hn), if_pos (hcn n hn)]
        · intro n hn
          by_cases h : n ∈ names
          · simp [cands, h] at hn
            simp [h]; omega
          · simp [h]

/-- An entry with nothing but these file names, mime types and guesses. -/
def plain (f m g : List (Str × Nat)) : Entry := ⟨['n'], ['d'], [], [], [], f, m, g⟩

/-- Three languages, two of which have the same weight for the file name, and different contents. -/
def threeLangs : Registry :=
  [(['a'], plain [(['f'], 8)] [] []), (['b'], plain [(['f'], 3)] [(['m'], 5)] [(['g'], 1)]), (['c'], plain [] [(['m'], 6)] [])]

example : ((threeLangs.map (·.1)).Nodup) ∧
    suggest (fun f p => f == p) (fun g c => g == c) threeLangs (some ['f']) (some ['m']) (some ['g']) = [['b'], ['a'], ['c']] ∧
    suggest (fun f p => f == p) (fun g c => g == c) threeLangs (some ['f']) none (some ['g']) = [['a'], ['b']] ∧
    suggest (fun f p => f == p) (fun g c => g == c) threeLangs none none (some ['g']) = [['b']] := by
  decide +kernel

/-- The documentation of `suggest` says that the file name has the most weight, and that the mime type is only
    looked at if two have the same weight. That is not the case: here `b` comes first although
    `a` has the higher weight for the file name, because the weights are added. -/
theorem C58_docstring_violated :
    suggest (fun f p => f == p) (fun g c => g == c)
      [(['a'], plain [(['f'], 8)] [] []), (['b'], plain [(['f'], 3)] [(['m'], 6)] [])] (some ['f']) (some ['m']) none = [['b'], ['a']] := by
  decide +kernel

/-- What a registry itself finds for a name, or otherwise for a file name, mime type and contents. -/
def ownResult (lower : Str → Str) (file search : Str → Str → Bool) (name filename mimetype contents : Option Str) (r : Registry) :
    Except Err (Option Str) := match name with
  | some n => qualname lower r n
  | none => .ok (suggest file search r filename mimetype contents).head?

/-- **C58** (partial). If no registry is empty, the result is that of the first registry in the chain of fallbacks that
    finds something; nothing if none does. The keys have at least two dots, as the documentation
    demands. Missing: empty registries, see `C58_violated_empty`. -/
theorem C58_find_partial (lower : Str → Str) (file search : Str → Str → Bool) (name filename mimetype contents : Option Str)
    (rs : List Registry) (hne : ∀ r ∈ rs, r ≠ []) (cls : Str → Str) (hr : ∀ r ∈ rs, ∀ x ∈ r, HasClass x.1 (cls x.1)) :
    (∀ r ∈ rs, ∃ x, ownResult lower file search name filename mimetype contents r = .ok x) ∧
    (∀ pre r post q, rs = pre ++ r :: post →
      (∀ r' ∈ pre, ownResult lower file search name filename mimetype contents r' = .ok none) →
      ownResult lower file search name filename mimetype contents r = .ok (some q) →
      find lower file search name filename mimetype contents rs = .ok (some q)) ∧
    ((∀ r ∈ rs, ownResult lower file search name filename mimetype contents r = .ok none) →
      find lower file search name filename mimetype contents rs = .ok none) := by
  have hok : ∀ r ∈ rs, ∃ x, ownResult lower file search name filename mimetype contents r = .ok x := by
    intro r h
    unfold ownResult
    cases name with
    | none => exact ⟨_, rfl⟩
    | some n => exact ⟨_, C58_qualname lower r n cls (hr r h)⟩
  have hstep : ∀ r ∈ rs, ∀ rest, (ownResult lower file search name filename mimetype contents r = .ok none →
        find lower file search name filename mimetype contents (r :: rest) = find lower file search name filename mimetype contents rest) ∧
      ∀ q, ownResult lower file search name filename mimetype contents r = .ok (some q) →
        find lower file search name filename mimetype contents (r :: rest) = .ok (some q) := by
    intro r h rest
    have hne := hne r h
    have hr := hr r h
    unfold ownResult
    rw [find.eq_def lower file search name filename mimetype contents (r :: rest)]
    simp only [if_neg hne]
    cases name with
    | some n =>
      simp only
      refine ⟨fun h => by rw [h], fun q hq => ?_⟩
      have hq' : q ≠ [] := by
        rw [C58_qualname lower r n cls hr] at hq
        injection hq with hq
        rw [Option.map_eq_some_iff] at hq
        obtain ⟨x, hx, rfl⟩ := hq
        have hmem : x ∈ r := by
          cases h1 : r.find? (fun x => decide (x.2.name = n)) with
          | some y => rw [h1] at hx; injection hx with hx; subst hx; exact List.mem_of_find?_eq_some h1
          | none =>
            rw [h1] at hx
            cases h2 : r.find? (fun x => decide (n ∈ x.2.aliases)) with
            | some y => rw [h2] at hx; injection hx with hx; subst hx; exact List.mem_of_find?_eq_some h2
            | none =>
              rw [h2] at hx
              cases h3 : r.find? (fun x => (x.2.name :: x.2.aliases).any (fun a => lower a == lower n)) with
              | some y => rw [h3] at hx; injection hx with hx; subst hx; exact List.mem_of_find?_eq_some h3
              | none =>
                rw [h3] at hx
                exact List.mem_of_find?_eq_some hx
        obtain ⟨m, l, _, _, he⟩ := hr x hmem
        rw [he]; simp
      rw [hq]
      cases q with
      | nil => exact absurd rfl hq'
      | cons c q => rfl
    | none =>
      simp only
      cases suggest file search r filename mimetype contents with
      | nil => exact ⟨fun _ => rfl, fun q hq => by cases hq⟩
      | cons q' l => exact ⟨fun h => (by cases h), fun q hq => by injection hq with hq; injection hq with hq; subst hq; rfl⟩
  refine ⟨hok, ?_, ?_⟩
  · intro pre r post q hrs hpre hq
    have : ∀ r' ∈ pre ++ r :: post, r' ∈ rs := by rw [hrs]; exact fun _ h => h
    rw [hrs]
    clear hrs
    induction pre with
    | nil => exact (hstep r (this r (by simp)) post).2 q hq
    | cons p pre ih =>
      rw [List.cons_append, (hstep p (this p (by simp)) _).1 (hpre p (by simp))]
      exact ih (fun r' h => hpre r' (by simp [h])) (fun r' h => this r' (List.mem_cons_of_mem _ h))
  · intro hnone
    clear hok hne hr
    induction rs with
    | nil => rfl
    | cons r rs ih =>
      rw [(hstep r (by simp) rs).1 (hnone r (by simp))]
      exact ih (fun r' h => hstep r' (by simp [h])) (fun r' h => hnone r' (by simp [h]))

/-- **C58 does not hold** for an empty registry with a fallback: the loop `while self` ends at once, because an empty
    dictionary is false, and the fallback is not consulted. -/
theorem C58_violated_empty : ∃ (r : Registry) (q n : Str),
    find id (fun _ _ => false) (fun _ _ => false) (some n) none none none [[], r] = .ok none ∧
    find id (fun _ _ => false) (fun _ _ => false) (some n) none none none [r] = .ok (some q) :=
  ⟨[("p.css.Css.root".toList, plain [] [] [])], "p.css.Css.root".toList, ['n'], rfl, rfl⟩

example : ∃ (rs : List Registry) (cls : Str → Str), rs.length = 2 ∧ (∀ r ∈ rs, r ≠ []) ∧ (∀ r ∈ rs, ∀ x ∈ r, HasClass x.1 (cls x.1)) := by
  refine ⟨[[("p.x.X.root".toList, plain [] [] [])], [("p.css.Css.root".toList, plain [] [] [])]],
    fun q => if q = "p.x.X.root".toList then "X".toList else "Css".toList, rfl, by simp, ?_⟩
  intro r hr x hx
  simp only [List.mem_cons, List.not_mem_nil, or_false] at hr
  rcases hr with rfl | rfl
  · simp only [List.mem_cons, List.not_mem_nil, or_false] at hx; subst hx
    exact ⟨"p.x".toList, "root".toList, by decide, by decide, by decide⟩
  · simp only [List.mem_cons, List.not_mem_nil, or_false] at hx; subst hx
    exact ⟨"p.css".toList, "root".toList, by decide, by decide, by decide⟩

/-! ## C65 -/

/-- **C65.** Adding without `inherit` stores the entry under its name and leaves all other entries as they are; without a
    name or description it fails. -/
theorem C65_add (r : Registry) (q : Str) (e : Entry) (hn : e.name ≠ []) (hd : e.desc ≠ []) :
    ∃ r', add r q e none = .ok r' ∧ get? r' q = some e ∧ ∀ q', q' ≠ q → get? r' q' = get? r q' := by
  refine ⟨put r q e, by simp [add, hn, hd], get?_put r q e, fun q' h => get?_put_ne r q q' e h⟩

/-- **C65.** Adding with `inherit` replaces the inherited entry: it is no longer there under its own name (unless that is
    the new name), and its aliases, file names, mime types and guesses come before the new ones. Name,
    description and section, if not given, are those of the inherited entry. Both authors are named, the inherited one
    first. -/
theorem C65_inherit (r : Registry) (q i : Str) (e t : Entry) (hi : get? r i = some t)
    (hn : e.name ≠ [] ∨ t.name ≠ []) (hd : e.desc ≠ [] ∨ t.desc ≠ []) :
    ∃ r' e', add r q e (some i) = .ok r' ∧ get? r' q = some e' ∧ (i ≠ q → get? r' i = none) ∧
      (∀ q', q' ≠ q → q' ≠ i → get? r' q' = get? r q') ∧
      e'.aliases = t.aliases ++ e.aliases ∧ e'.filenames = t.filenames ++ e.filenames ∧
      e'.mimetypes = t.mimetypes ++ e.mimetypes ∧ e'.guesses = t.guesses ++ e.guesses ∧
      e'.name = (if e.name = [] then t.name else e.name) ∧ e'.desc = (if e.desc = [] then t.desc else e.desc) ∧
      e'.section' = (if e.section' = [] then t.section' else e.section') ∧
      (e.author = [] → e'.author = t.author) ∧
      (e.author ≠ [] → t.author = [] ∨ t.author = e.author → e'.author = e.author) ∧
      (e.author ≠ [] → t.author ≠ [] → t.author ≠ e.author → e'.author = t.author ++ [' ', '+', ' '] ++ e.author) := by
  refine ⟨put (del r i) q ⟨if e.name = [] then t.name else e.name, if e.desc = [] then t.desc else e.desc,
    if e.section' = [] then t.section' else e.section', mergeAuthor t.author e.author, t.aliases ++ e.aliases,
    t.filenames ++ e.filenames, t.mimetypes ++ e.mimetypes, t.guesses ++ e.guesses⟩, _, ?_, get?_put _ _ _, ?_, ?_,
    rfl, rfl, rfl, rfl, rfl, rfl, rfl, ?_, ?_, ?_⟩
  · simp only [add, hi]
    rw [if_neg]
    rintro (h | h)
    · split at h
      · rename_i h0; rcases hn with hn | hn
        · exact hn h0
        · exact hn h
      · rename_i h0; exact h0 h
    · split at h
      · rename_i h0; rcases hd with hd | hd
        · exact hd h0
        · exact hd h
      · rename_i h0; exact h0 h
  · intro h
    rw [get?_put_ne _ _ _ _ h, get?_del]
  · intro q' h1 h2
    rw [get?_put_ne _ _ _ _ h1, get?_del_ne _ _ _ h2]
  · intro h; simp [mergeAuthor, h]
  · intro h h'
    have : ¬ (t.author ≠ [] ∧ t.author ≠ e.author) := by
      rintro ⟨h1, h2⟩
      rcases h' with h' | h'
      · exact h1 h'
      · exact h2 h'
    simp only [mergeAuthor, if_neg h, if_neg this]
  · intro h h1 h2; simp [mergeAuthor, h, h1, h2]

/-- **C65.** The errors: an inherited entry that does not exist; no name or description. -/
theorem C65_errors (r : Registry) (q : Str) (e : Entry) :
    (∀ i, get? r i = none → add r q e (some i) = .error .key) ∧
    (e.name = [] ∨ e.desc = [] → add r q e none = .error .value) := by
  refine ⟨fun i h => by simp [add, h], fun h => by simp [add, h]⟩

example : ∃ r' : Registry, add threeLangs ['d'] ⟨[], [], [], [], [], [(['x'], 1)], [], []⟩ (some ['b']) = .ok r' ∧
    r'.map (·.1) = [['a'], ['c'], ['d']] ∧ (get? r' ['d']).map (·.filenames) = some [(['f'], 3), (['x'], 1)] :=
  ⟨_, rfl, by decide, by decide⟩

end Parce.Reg
