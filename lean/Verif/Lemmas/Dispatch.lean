import Verif.Spec.Dispatch
/-!
# Lemmas on dispatchers
-/
namespace Parce.Disp
set_option linter.unusedSectionVars false
set_option linter.unusedSimpArgs false
variable {Key Name Fn Val : Type} [DecidableEq Key] [DecidableEq Name]

theorem get_set (d : Table Key Val) (k : Key) (v : Val) (x : Key) : (d.set k v).get x = if x = k then some v else d.get x := by
  induction d with
  | nil =>
    unfold Table.set Table.get
    by_cases e : x = k
    · simp [e]
    · have e' : k ≠ x := fun h => e h.symm
      simp [e, e']
  | cons p d ih =>
    obtain ⟨k', v'⟩ := p
    unfold Table.set
    by_cases e : k' = k
    · subst e
      rw [if_pos rfl]
      unfold Table.get
      by_cases e' : x = k'
      · simp [e']
      · have e'' : k' ≠ x := fun h => e' h.symm
        simp [e', e'']
    · rw [if_neg e]
      unfold Table.get at ih ⊢
      by_cases e' : k' = x
      · have : x ≠ k := fun h => e (e'.trans h)
        simp [e', this]
      · rw [List.find?_cons_of_neg (by simpa using e'), List.find?_cons_of_neg (by simpa using e')]
        exact ih

theorem get_cons (k : Key) (v : Val) (d : Table Key Val) (x : Key) : Table.get ((k, v) :: d) x = if k = x then some v else d.get x := by
  unfold Table.get
  by_cases e : k = x
  · simp [e]
  · simp [e]

/-- `update` with any list of pairs: the last one counts. -/
theorem get_update (d : Table Key Val) (e : List (Key × Val)) (x : Key) :
    (Table.update d e).get x = ((e.reverse.find? fun p => p.1 = x).map (·.2)).or (d.get x) := by
  unfold Table.update
  induction e generalizing d with
  | nil => simp
  | cons p e ih =>
    rw [List.foldl_cons, ih, get_set, List.reverse_cons, List.find?_append]
    cases h : e.reverse.find? (fun p => p.1 = x) with
    | some q => simp
    | none =>
      by_cases hx : x = p.1
      · subst hx; simp
      · have hx' : p.1 ≠ x := fun h => hx h.symm
        simp [hx, hx']

/-- The keys of a table are different. -/
def Table.Ok (d : Table Key Val) : Prop := (d.map (·.1)).Nodup

theorem set_keys (d : Table Key Val) (k : Key) (v : Val) (x : Key) : x ∈ (d.set k v).map (·.1) ↔ x = k ∨ x ∈ d.map (·.1) := by
  induction d with
  | nil => simp [Table.set]
  | cons p d ih =>
    obtain ⟨k', v'⟩ := p
    unfold Table.set
    by_cases e : k' = k
    · rw [if_pos e]
      simp only [List.map_cons, List.mem_cons]
      constructor
      · rintro (h | h)
        · exact Or.inr (Or.inl h)
        · exact Or.inr (Or.inr h)
      · rintro (h | h | h)
        · exact Or.inl (h.trans e.symm)
        · exact Or.inl h
        · exact Or.inr h
    · rw [if_neg e]
      simp only [List.map_cons, List.mem_cons, ih]
      constructor
      · rintro (h | h | h)
        · exact Or.inr (Or.inl h)
        · exact Or.inl h
        · exact Or.inr (Or.inr h)
      · rintro (h | h | h)
        · exact Or.inr (Or.inl h)
        · exact Or.inl h
        · exact Or.inr (Or.inr h)

theorem set_ok {d : Table Key Val} (h : d.Ok) (k : Key) (v : Val) : (d.set k v).Ok := by
  induction d with
  | nil => simp [Table.set, Table.Ok]
  | cons p d ih =>
    obtain ⟨k', v'⟩ := p
    have h' := List.nodup_cons.1 h
    unfold Table.set
    by_cases e : k' = k
    · rw [if_pos e]; exact h
    · rw [if_neg e]
      refine List.nodup_cons.2 ⟨?_, ih h'.2⟩
      intro hm
      rcases (set_keys d k v k').1 hm with hk | hk
      · exact e hk
      · exact h'.1 hk

theorem foldl_set_ok {X : Type} (f : X → Key) (g : X → Val) (l : List X) {d : Table Key Val} (h : d.Ok) : Table.Ok (l.foldl (fun d x => d.set (f x) (g x)) d) := by
  induction l generalizing d with
  | nil => exact h
  | cons x l ih => exact ih (set_ok h _ _)

theorem find?_ok {d : Table Key Val} (h : d.Ok) (x : Key) : (d.reverse.find? fun p => p.1 = x).map (·.2) = d.get x := by
  induction d with
  | nil => rfl
  | cons p d ih =>
    obtain ⟨k, v⟩ := p
    have h' := List.nodup_cons.1 h
    rw [List.reverse_cons, List.find?_append, get_cons]
    by_cases e : k = x
    · subst e
      have : d.reverse.find? (fun p => p.1 = k) = none := by
        rw [List.find?_eq_none]
        intro p hp
        simp only [decide_eq_true_eq]
        intro e
        exact h'.1 (List.mem_map.2 ⟨p, List.mem_reverse.1 hp, e⟩)
      rw [this]
      simp
    · rw [if_neg e, ← ih h'.2]
      cases d.reverse.find? (fun p => p.1 = x) <;> simp [e]

theorem get_update_ok (d : Table Key Val) {e : Table Key Val} (h : e.Ok) (x : Key) : (Table.update d e).get x = (e.get x).or (d.get x) := by
  rw [get_update, find?_ok h]

theorem update_ok {d : Table Key Val} (h : d.Ok) (e : Table Key Val) : (Table.update d e).Ok := foldl_set_ok Prod.fst Prod.snd e h

theorem get_register (t : Table Key Name) (keys : List Key) (n : Name) (x : Key) :
    (register t keys n).get x = if keys.contains x then some n else t.get x := by
  unfold register
  induction keys generalizing t with
  | nil => simp
  | cons k keys ih =>
    rw [List.foldl_cons, ih, get_set]
    by_cases h : x ∈ keys <;> by_cases h' : x = k <;> simp [h, h']

theorem register_ok {t : Table Key Name} (h : t.Ok) (keys : List Key) (n : Name) : (register t keys n).Ok := foldl_set_ok id (fun _ => n) keys h

theorem get_body (decos : List (List Key × Name)) (t : Table Key Name) (x : Key) :
    (decos.foldl (fun t d => register t d.1 d.2) t).get x = (registered decos x).or (t.get x) := by
  unfold registered
  induction decos generalizing t with
  | nil => simp
  | cons d decos ih =>
    rw [List.foldl_cons, ih, get_register, List.reverse_cons, List.find?_append]
    cases h : decos.reverse.find? (fun d => d.1.contains x) with
    | some q => simp
    | none => by_cases hx : x ∈ d.1 <;> simp [hx]

theorem get_bodyTable (decos : List (List Key × Name)) (x : Key) : (bodyTable decos).get x = registered decos x := by
  unfold bodyTable
  rw [get_body]
  simp [Table.get]

theorem bodyTable_ok (decos : List (List Key × Name)) : (bodyTable decos).Ok := by
  have : ∀ t : Table Key Name, t.Ok → Table.Ok (decos.foldl (fun t d => register t d.1 d.2) t) := by
    induction decos with
    | nil => exact fun t h => h
    | cons d decos ih => exact fun t h => ih _ (register_ok h _ _)
  exact this [] (by simp [Table.Ok])

theorem dispatchers_eq (name : Name) (mro : List (Class Key Name Fn)) :
    dispatchers (mro.map (Class.dict name)) name = mro.filterMap fun c => c.decos.map bodyTable := by
  unfold dispatchers
  rw [List.filterMap_map]
  congr 1
  funext c
  simp only [Function.comp, Class.dict, if_true]
  cases c.decos <;> rfl

theorem merged_eq (name : Name) (mro : List (Class Key Name Fn)) (x : Key) :
    (merged (mro.map (Class.dict name)) name).get x = nameFor mro x ∧ (merged (mro.map (Class.dict name)) name).Ok := by
  unfold merged
  rw [dispatchers_eq]
  induction mro with
  | nil => exact ⟨rfl, by simp [Table.Ok]⟩
  | cons c mro ih =>
    rw [List.filterMap_cons]
    unfold nameFor at ih ⊢
    cases hc : c.decos with
    | none => simpa [hc] using ih
    | some d =>
      simp only [Option.map_some, List.reverse_cons, List.foldl_append, List.foldl_cons, List.foldl_nil]
      refine ⟨?_, update_ok ih.2 _⟩
      rw [get_update_ok _ (bodyTable_ok d), get_bodyTable, ih.1, List.findSome?_cons]
      simp only [hc, Option.bind_some]
      cases registered d x <;> rfl

theorem getattr_eq (name : Name) (mro : List (Class Key Name Fn)) (n : Name) : getattr (mro.map (Class.dict name)) n = lookup name mro n := by
  unfold getattr lookup
  rw [List.findSome?_map]
  rfl

theorem mapM_get {W : Type} (f : Val → Option W) {d : Table Key Val} {t : Table Key W}
    (h : d.mapM (fun e => (f e.2).map fun a => (e.1, a)) = some t) (x : Key) : t.get x = (d.get x).bind f := by
  induction d generalizing t with
  | nil => simp at h; subst h; rfl
  | cons p d ih =>
    obtain ⟨k, v⟩ := p
    rw [List.mapM_cons] at h
    cases hv : f v with
    | none => simp [hv] at h
    | some w =>
      cases hd : d.mapM (fun e => (f e.2).map fun a => (e.1, a)) with
      | none => simp [hd] at h
      | some t' =>
        simp [hv, hd] at h
        subst h
        rw [get_cons, get_cons, ih hd]
        by_cases e : k = x
        · simp [e, hv]
        · simp [e]

theorem mapM_none {W : Type} (f : Val → Option W) {d : Table Key Val} :
    d.mapM (fun e => (f e.2).map fun a => (e.1, a)) = none ↔ ∃ e ∈ d, f e.2 = none := by
  induction d with
  | nil => simp
  | cons p d ih =>
    rw [List.mapM_cons]
    cases hv : f p.2 with
    | none => simp [hv]
    | some w =>
      cases hd : d.mapM (fun e => (f e.2).map fun a => (e.1, a)) with
      | none =>
        obtain ⟨e, he, hf⟩ := ih.1 hd
        simp only [List.mem_cons]
        exact ⟨fun _ => ⟨e, Or.inr he, hf⟩, fun _ => by simp [hv]⟩
      | some t =>
        have : ¬ ∃ e ∈ d, f e.2 = none := fun h => by rw [ih.2 h] at hd; cases hd
        simp only [List.mem_cons]
        constructor
        · intro h; simp [hv] at h
        · rintro ⟨e, rfl | he, hf⟩
          · rw [hv] at hf; cases hf
          · exact absurd ⟨e, he, hf⟩ this

theorem get_of_mem {d : Table Key Val} (h : d.Ok) {k : Key} {v : Val} (hm : (k, v) ∈ d) : d.get k = some v := by
  induction d with
  | nil => cases hm
  | cons p d ih =>
    obtain ⟨k', v'⟩ := p
    have h' := List.nodup_cons.1 h
    rw [get_cons]
    rcases List.mem_cons.1 hm with e | hm
    · cases e; simp
    · have e : k' ≠ k := by rintro rfl; exact h'.1 (List.mem_map.2 ⟨_, hm, rfl⟩)
      rw [if_neg e]; exact ih h'.2 hm

theorem mem_of_get {d : Table Key Val} {k : Key} {v : Val} (h : d.get k = some v) : (k, v) ∈ d := by
  induction d with
  | nil => simp [Table.get] at h
  | cons p d ih =>
    obtain ⟨k', v'⟩ := p
    rw [get_cons] at h
    by_cases e : k' = k
    · rw [if_pos e] at h; cases h; simp [e]
    · rw [if_neg e] at h; exact List.mem_cons_of_mem _ (ih h)

end Parce.Disp
