import Verif.Spec.Observable
import Verif.Lemmas.Find
/-!
# Lemmas about `Observable`
-/
namespace Parce.Obs
variable {E F : Type}

def Srt (l : List (Observer F)) : Prop := l.Pairwise (fun a b => a.prio ≤ b.prio)

theorem insort_spec (slots : List (Observer F)) (o : Observer F) (h : Srt slots) :
    ∃ a b, slots = a ++ b ∧ insort slots o = a ++ o :: b ∧ (∀ x ∈ a, x.prio ≤ o.prio) ∧ ∀ x ∈ b, o.prio < x.prio := by
  have hb := bisect_spec (fun m => ((slots[m]?).map (fun x => decide (¬ o.prio < x.prio))).getD false)
    slots.length 0 slots.length (Nat.zero_le _) (by omega) (by
      intro i j _ hij hj hf
      have hi : i < slots.length := by omega
      simp only [List.getElem?_eq_getElem hj, List.getElem?_eq_getElem hi, Option.map_some, Option.getD_some,
        decide_eq_true_eq] at hf ⊢
      have := List.pairwise_iff_getElem.1 h i j hi hj hij
      omega)
  obtain ⟨_, h2, h3, h4⟩ := hb
  refine ⟨_, _, (List.take_append_drop _ slots).symm, rfl, ?_, ?_⟩
  · intro x hx
    obtain ⟨k, hk, rfl⟩ := List.mem_take_iff_getElem.1 hx
    have hk' : k < slots.length := by omega
    have := h3 k (by omega) (by omega)
    simp only [List.getElem?_eq_getElem hk', Option.map_some, Option.getD_some, decide_eq_true_eq] at this
    omega
  · intro x hx
    obtain ⟨k, hk, rfl⟩ := List.mem_drop_iff_getElem.1 hx
    have := h4 _ (Nat.le_add_left _ k) hk
    simp only [List.getElem?_eq_getElem hk, Option.map_some, Option.getD_some, decide_eq_false_iff_not,
      Decidable.not_not] at this
    simpa only [Nat.add_comm k] using this

theorem insort_sorted (slots : List (Observer F)) (o : Observer F) (h : Srt slots) : Srt (insort slots o) := by
  obtain ⟨a, b, rfl, h2, h3, h4⟩ := insort_spec slots o h
  rw [h2]
  unfold Srt at h ⊢
  rw [List.pairwise_append] at h ⊢
  refine ⟨h.1, List.pairwise_cons.2 ⟨fun x hx => by have := h4 x hx; omega, h.2.1⟩, ?_⟩
  intro x hx y hy
  rcases List.mem_cons.1 hy with rfl | hy
  · exact h3 x hx
  · exact h.2.2 x hx y hy

theorem insort_filter (slots : List (Observer F)) (o : Observer F) (h : Srt slots) (p : Int) :
    (insort slots o).filter (fun x => decide (x.prio = p)) =
      slots.filter (fun x => decide (x.prio = p)) ++ [o].filter (fun x => decide (x.prio = p)) := by
  obtain ⟨a, b, rfl, h2, h3, h4⟩ := insort_spec slots o h
  rw [h2]
  simp only [List.filter_append, List.filter_cons, List.filter_nil]
  by_cases hp : o.prio = p
  · have : b.filter (fun x => decide (x.prio = p)) = [] := by
      rw [List.filter_eq_nil_iff]
      intro x hx
      have := h4 x hx
      simp only [decide_eq_true_eq]
      omega
    simp [hp, this]
  · simp [hp]

theorem insort_mem (slots : List (Observer F)) (o x : Observer F) (h : Srt slots) :
    x ∈ insort slots o ↔ x = o ∨ x ∈ slots := by
  obtain ⟨a, b, rfl, h2, _, _⟩ := insort_spec slots o h
  rw [h2]
  simp only [List.mem_append, List.mem_cons]
  constructor
  · rintro (h | h | h)
    · exact Or.inr (Or.inl h)
    · exact Or.inl h
    · exact Or.inr (Or.inr h)
  · rintro (h | h | h)
    · exact Or.inr (Or.inl h)
    · exact Or.inl h
    · exact Or.inr (Or.inr h)

theorem remove_spec [DecidableEq F] (f : F) : ∀ (l : List (Observer F)), (l.map (·.func)).Nodup →
    (remove f l = none → ∀ x ∈ l, x.func ≠ f) ∧
    (∀ s, remove f l = some s → s = l.filter (fun x => !decide (x.func = f))) := by
  intro l
  induction l with
  | nil => intro _; simp [remove]
  | cons o os ih =>
    intro hn
    simp only [List.map_cons, List.nodup_cons] at hn
    obtain ⟨i1, i2⟩ := ih hn.2
    unfold remove
    by_cases h : o.func = f
    · simp only [h, if_true]
      refine ⟨by simp, ?_⟩
      rintro s hs
      have hs := Option.some.inj hs
      subst hs
      simp only [List.filter_cons, h, decide_true, Bool.not_true, Bool.false_eq_true, if_false]
      rw [List.filter_eq_self.2]
      intro x hx
      have : x.func ≠ f := by
        intro hxf
        exact hn.1 (by rw [h, ← hxf]; exact List.mem_map_of_mem hx)
      simp [this]
    · simp only [if_neg h]
      refine ⟨?_, ?_⟩
      · intro hr x hx
        rw [Option.map_eq_none_iff] at hr
        rcases List.mem_cons.1 hx with rfl | hx
        · exact h
        · exact i1 hr x hx
      · intro s hs
        obtain ⟨s', h1, h2⟩ := Option.map_eq_some_iff.1 hs
        rw [← h2, i2 s' h1]
        simp [h]

theorem delAll_append (s : List (Observer F)) (a b : List Nat) :
    delAll s (a ++ b) = (delAll s a).bind (fun s' => delAll s' b) := by
  induction a generalizing s with
  | nil => rfl
  | cons i is ih =>
    simp only [List.cons_append, delAll]
    split
    · exact ih _
    · rfl

theorem emitLoop_spec (alive : F → Bool) (slots : List (Observer F)) : ∀ (fuel i : Nat), slots.length - i ≤ fuel →
    (emitLoop alive (fun _ s => s) fuel i slots).1 = ((slots.drop i).filter (fun o => alive o.func)).map (·.func) ∧
    (emitLoop alive (fun _ s => s) fuel i slots).2.1 = slots ∧
    delAll slots (emitLoop alive (fun _ s => s) fuel i slots).2.2.reverse =
      some (slots.take i ++ (slots.drop i).filter (fun o => !(o.once || !alive o.func))) := by
  intro fuel
  induction fuel with
  | zero =>
    intro i h
    have h1 : slots.drop i = [] := List.drop_eq_nil_iff.2 (by omega)
    have h2 : slots.take i = slots := List.take_of_length_le (by omega)
    simp [emitLoop, h1, h2, delAll]
  | succ fuel ih =>
    intro i h
    unfold emitLoop
    cases hi : slots[i]? with
    | none =>
      have hlen := List.getElem?_eq_none_iff.1 hi
      have h1 : slots.drop i = [] := List.drop_eq_nil_iff.2 (by omega)
      have h2 : slots.take i = slots := List.take_of_length_le (by omega)
      simp [h1, h2, delAll]
    | some o =>
      obtain ⟨hlt, ho⟩ := List.getElem?_eq_some_iff.1 hi
      obtain ⟨i1, i2, i3⟩ := ih (i + 1) (by omega)
      have hd : slots.drop i = o :: slots.drop (i + 1) := by rw [← ho]; exact List.drop_eq_getElem_cons hlt
      have ht : slots.take (i + 1) = slots.take i ++ [o] := by rw [← ho]; exact List.take_succ_eq_append_getElem hlt
      simp only [ite_self, i1, i2, hd, true_and, List.filter_cons]
      refine ⟨?_, ?_⟩
      · split <;> simp
      · by_cases hk : (o.once || !alive o.func) = true
        · simp only [hk, if_true, List.reverse_cons, Bool.not_true, Bool.false_eq_true, if_false]
          rw [delAll_append, i3, ht]
          simp only [Option.bind_some, delAll]
          have hlen : (slots.take i).length = i := by simp; omega
          rw [if_pos (by simp; omega)]
          rw [List.append_assoc, List.eraseIdx_append_of_length_le (by omega), hlen, Nat.sub_self]
          rfl
        · simp only [hk, Bool.false_eq_true, if_false, Bool.not_false, if_true]
          rw [i3, ht]
          simp

theorem inj_of_nodup {β γ : Type} {f : β → γ} : ∀ {l : List β}, (l.map f).Nodup → ∀ {a b : β}, a ∈ l → b ∈ l → f a = f b → a = b := by
  intro l
  induction l with
  | nil => intro _ a b ha; simp at ha
  | cons x l ih =>
    intro h a b ha hb hab
    simp only [List.map_cons, List.nodup_cons] at h
    rcases List.mem_cons.1 ha with rfl | ha'
    · rcases List.mem_cons.1 hb with rfl | hb'
      · rfl
      · exact absurd (by rw [hab]; exact List.mem_map_of_mem hb') h.1
    · rcases List.mem_cons.1 hb with rfl | hb'
      · exact absurd (by rw [← hab]; exact List.mem_map_of_mem ha') h.1
      · exact ih h.2 ha' hb' hab

/-- The model state represents the connections. -/
structure Rel [DecidableEq E] (c : Callbacks E F) (cs : List (Conn E F)) : Prop where
  nonempty : ∀ e, c e ≠ some []
  sorted : ∀ e, Srt ((c e).getD [])
  same : ∀ e (p : Int), ((c e).getD []).filter (fun x => decide (x.prio = p)) =
    ((cs.filter (fun c => decide (c.event = e))).map (fun c => (⟨c.func, c.once, c.prio⟩ : Observer F))).filter
      (fun x => decide (x.prio = p))
  nodup : ∀ e, ((cs.filter (fun c => decide (c.event = e))).map (·.func)).Nodup

theorem mem_of_filters {l m : List (Observer F)} (h : ∀ p : Int, l.filter (fun x => decide (x.prio = p)) =
    m.filter (fun x => decide (x.prio = p))) (x : Observer F) : x ∈ l ↔ x ∈ m := by
  have h1 : x ∈ l ↔ x ∈ l.filter (fun y => decide (y.prio = x.prio)) := by simp
  have h2 : x ∈ m ↔ x ∈ m.filter (fun y => decide (y.prio = x.prio)) := by simp
  rw [h1, h2, h]

/-- The same elements for each priority, so a permutation. -/
theorem perm_of_filters [DecidableEq F] {l m : List (Observer F)} (h : ∀ p : Int, l.filter (fun x => decide (x.prio = p)) =
    m.filter (fun x => decide (x.prio = p))) : l.Perm m := by
  rw [List.perm_iff_count]
  intro x
  have h1 := congrArg (List.count x) (h x.prio)
  rwa [List.count_filter (by simp), List.count_filter (by simp)] at h1

section
variable [DecidableEq E] [DecidableEq F]

theorem Rel.empty : Rel (Callbacks.empty : Callbacks E F) [] :=
  ⟨fun e => by simp [Callbacks.empty], fun e => by simp [Callbacks.empty, Srt], fun e p => by simp [Callbacks.empty],
    fun e => by simp⟩

theorem Rel.mem {c : Callbacks E F} {cs : List (Conn E F)} (h : Rel c cs) (e : E) (x : Observer F) :
    x ∈ (c e).getD [] ↔ ∃ k ∈ cs, k.event = e ∧ (⟨k.func, k.once, k.prio⟩ : Observer F) = x := by
  rw [mem_of_filters (h.same e) x]
  simp only [List.mem_map, List.mem_filter, decide_eq_true_eq, and_assoc]

theorem Rel.funcs_nodup {c : Callbacks E F} {cs : List (Conn E F)} (h : Rel c cs) (e : E) :
    (((c e).getD []).map (·.func)).Nodup := by
  have hp := (perm_of_filters (h.same e)).map (·.func)
  rw [hp.nodup_iff, List.map_map]
  exact h.nodup e

theorem Rel.connect {c : Callbacks E F} {cs : List (Conn E F)} (h : Rel c cs) (e : E) (f : F) (once : Bool) (prio : Int)
    (hn : ¬ ∃ k ∈ cs, k.event = e ∧ k.func = f) :
    Rel (connect c e ⟨f, once, prio⟩) (cs ++ [⟨e, f, once, prio⟩]) := by
  have hany : ((c e).getD []).any (fun x => decide (x.func = f)) = false := by
    rw [List.any_eq_false]
    intro x hx
    obtain ⟨k, hk, hke, rfl⟩ := (h.mem e x).1 hx
    simp only [decide_eq_true_eq]
    exact fun hf => hn ⟨k, hk, hke, hf⟩
  unfold Obs.connect
  simp only [hany, Bool.false_eq_true, if_false]
  have hs := h.sorted e
  refine ⟨?_, ?_, ?_, ?_⟩
  · intro e'
    simp only [Callbacks.set]
    split
    · intro hh
      have hh := Option.some.inj hh
      have : (⟨f, once, prio⟩ : Observer F) ∈ insort ((c e).getD []) ⟨f, once, prio⟩ := (insort_mem _ _ _ hs).2 (Or.inl rfl)
      rw [hh] at this
      simp at this
    · exact h.nonempty e'
  · intro e'
    simp only [Callbacks.set]
    split
    · exact insort_sorted _ _ hs
    · exact h.sorted e'
  · intro e' p
    simp only [Callbacks.set]
    split
    · next he =>
      subst he
      rw [Option.getD_some, insort_filter _ _ hs, h.same]
      simp [List.filter_append, List.map_append]
    · next he =>
      rw [h.same]
      simp [List.filter_append, List.filter_cons, Ne.symm he]
  · intro e'
    by_cases he : e = e'
    · subst he
      simp only [List.filter_append, List.map_append, List.filter_cons, decide_true, if_true, List.filter_nil,
        List.map_cons, List.map_nil]
      rw [List.nodup_append]
      refine ⟨h.nodup e, by simp, ?_⟩
      intro a ha b hb hab
      simp only [List.mem_singleton] at hb
      subst hb hab
      obtain ⟨k, hk, hkf⟩ := List.mem_map.1 ha
      simp only [List.mem_filter, decide_eq_true_eq] at hk
      exact hn ⟨k, hk.1, hk.2, hkf⟩
    · simp only [List.filter_append, List.filter_cons, he, decide_false, Bool.false_eq_true, if_false, List.filter_nil,
        List.append_nil]
      exact h.nodup e'

theorem Rel.again {c : Callbacks E F} {cs : List (Conn E F)} (h : Rel c cs) (e : E) (f : F) (once : Bool) (prio : Int)
    (hn : ∃ k ∈ cs, k.event = e ∧ k.func = f) : Obs.connect c e ⟨f, once, prio⟩ = c := by
  obtain ⟨k, hk, hke, hkf⟩ := hn
  have hm := (h.mem e ⟨k.func, k.once, k.prio⟩).2 ⟨k, hk, hke, rfl⟩
  have hany : ((c e).getD []).any (fun x => decide (x.func = f)) = true := by
    rw [List.any_eq_true]
    exact ⟨_, hm, by simpa using hkf⟩
  unfold Obs.connect
  simp only [hany, if_true]
  funext e'
  simp only [Callbacks.set]
  split
  · next he =>
    subst he
    cases hc : c e' with
    | none => rw [hc] at hm; simp at hm
    | some s => rfl
  · rfl

/-- Filtering the list of one event. -/
theorem Rel.filter {c : Callbacks E F} {cs : List (Conn E F)} (h : Rel c cs) (e : E) (keep : F → Bool → Bool)
    (v : Option (List (Observer F))) (hv : v ≠ some [])
    (hf : v.getD [] = ((c e).getD []).filter (fun o => keep o.func o.once)) :
    Rel (c.set e v) (cs.filter (fun k => !(decide (k.event = e) && !keep k.func k.once))) := by
  refine ⟨?_, ?_, ?_, ?_⟩
  · intro e'
    simp only [Callbacks.set]
    split
    · exact hv
    · exact h.nonempty e'
  · intro e'
    simp only [Callbacks.set]
    split
    · rw [hf]; exact (h.sorted e).filter _
    · exact h.sorted e'
  · intro e' p
    simp only [Callbacks.set]
    split
    · next he =>
      subst he
      rw [hf, List.filter_filter]
      have := congrArg (List.filter (fun o : Observer F => keep o.func o.once)) (h.same e' p)
      simp only [List.filter_filter] at this
      rw [show (fun a : Observer F => decide (a.prio = p) && keep a.func a.once) =
        (fun a : Observer F => keep a.func a.once && decide (a.prio = p)) from by funext a; exact Bool.and_comm _ _]
      rw [this]
      simp only [List.filter_map, List.filter_filter]
      congr 1
      apply List.filter_congr
      intro x _
      simp only [Function.comp]
      cases decide (x.event = e') <;> cases keep x.func x.once <;> cases decide (x.prio = p) <;> rfl
    · next he =>
      rw [h.same]
      simp only [List.filter_map, List.filter_filter]
      congr 1
      apply List.filter_congr
      intro x _
      by_cases hx : x.event = e'
      · subst hx; simp [he]
      · simp [hx]
  · intro e'
    have : (cs.filter (fun k => !(decide (k.event = e) && !keep k.func k.once))).filter (fun k => decide (k.event = e')) =
        (cs.filter (fun k => decide (k.event = e'))).filter (fun k => !(decide (k.event = e) && !keep k.func k.once)) := by
      simp only [List.filter_filter]
      apply List.filter_congr
      intro x _
      exact Bool.and_comm _ _
    rw [this]
    exact (h.nodup e').sublist (List.Sublist.map _ List.filter_sublist)

theorem set_self (c : Callbacks E F) (e : E) : c.set e (c e) = c := by
  funext e'
  simp only [Callbacks.set]
  split
  · next h => rw [h]
  · rfl

theorem Rel.disconnect {c : Callbacks E F} {cs : List (Conn E F)} (h : Rel c cs) (e : E) (f : F) :
    Rel (disconnect c e f) (cs.filter (fun k => !(decide (k.event = e) && decide (k.func = f)))) := by
  have key : ∀ v, v ≠ some [] → v.getD [] = ((c e).getD []).filter (fun o => !decide (o.func = f)) →
      Rel (c.set e v) (cs.filter (fun k => !(decide (k.event = e) && decide (k.func = f)))) := by
    intro v h1 h2
    have := h.filter e (fun g _ => !decide (g = f)) v h1 h2
    simpa using this
  have hnd := h.funcs_nodup e
  unfold Obs.disconnect
  cases hc : c e with
  | none =>
    simp only
    rw [← set_self c e, hc]
    exact key none (by simp) (by simp [hc])
  | some slots =>
    rw [hc, Option.getD_some] at hnd
    obtain ⟨r1, r2⟩ := remove_spec f slots hnd
    simp only
    cases hr : remove f slots with
    | none =>
      simp only
      have := key (c e) (h.nonempty e) (by
        rw [hc, Option.getD_some, List.filter_eq_self.2]
        intro x hx
        simpa using r1 hr x hx)
      rwa [set_self] at this
    | some s =>
      have hs := r2 s hr
      cases s with
      | nil => exact key none (by simp) (by rw [hc]; exact hs)
      | cons a b => exact key (some (a :: b)) (by simp) (by rw [hc]; exact hs)

theorem Rel.disconnectAll {c : Callbacks E F} {cs : List (Conn E F)} (h : Rel c cs) (e : E) :
    Rel (disconnectAll c (some e)) (cs.filter (fun k => !decide (k.event = e))) := by
  have := h.filter e (fun _ _ => false) none (by simp) (by simp)
  simpa [Obs.disconnectAll] using this

theorem Rel.emit {c : Callbacks E F} {cs : List (Conn E F)} (h : Rel c cs) (alive : F → Bool) (e : E) :
    (emit alive c e).1 = (((c e).getD []).filter (fun o => alive o.func)).map (·.func) ∧
    ∃ c', (emit alive c e).2 = some c' ∧
      Rel c' (cs.filter (fun k => !(decide (k.event = e) && (k.once || !alive k.func)))) := by
  have key : ∀ v, v ≠ some [] → v.getD [] = ((c e).getD []).filter (fun o => !(o.once || !alive o.func)) →
      Rel (c.set e v) (cs.filter (fun k => !(decide (k.event = e) && (k.once || !alive k.func)))) := by
    intro v h1 h2
    have := h.filter e (fun g once => !(once || !alive g)) v h1 h2
    simpa using this
  unfold Obs.emit
  cases hc : c e with
  | none =>
    refine ⟨rfl, c, rfl, ?_⟩
    have := key none (by simp) (by simp [hc])
    rwa [← hc, set_self] at this
  | some slots =>
    obtain ⟨l1, l2, l3⟩ := emitLoop_spec alive slots slots.length 0 (by omega)
    simp only [List.drop_zero, List.take_zero, List.nil_append] at l1 l3
    have he : emitSlots alive (fun _ s => s) slots.length slots =
        ((slots.filter (fun o => alive o.func)).map (·.func), some (slots.filter (fun o => !(o.once || !alive o.func)))) := by
      unfold emitSlots
      simp only [l1, l2, l3]
    simp only [he]
    cases hr : slots.filter (fun o => !(o.once || !alive o.func)) with
    | nil =>
      refine ⟨rfl, _, rfl, key none (by simp) ?_⟩
      rw [hc]; exact hr.symm
    | cons a b =>
      refine ⟨rfl, _, rfl, key (some (a :: b)) (by simp) ?_⟩
      rw [hc]; exact hr.symm

/-- The general form: from any state that represents the connections. -/
theorem run_spec (ops : List (Op E F)) : ∀ (c : Callbacks E F) (cs : List (Conn E F)), Rel c cs →
    ∃ c' out cs', run c ops = some (c', out) ∧ Runs cs ops cs' out ∧ Rel c' cs' := by
  induction ops with
  | nil => exact fun c cs h => ⟨c, [], cs, rfl, .nil cs, h⟩
  | cons op ops ih =>
    intro c cs h
    cases op with
    | connect e f once prio =>
      by_cases hn : ∃ k ∈ cs, k.event = e ∧ k.func = f
      · obtain ⟨c', out, cs', h1, h2, h3⟩ := ih c cs h
        refine ⟨c', out, cs', ?_, .again _ _ _ _ _ _ _ _ hn h2, h3⟩
        rw [run, h.again e f once prio hn, h1]
      · obtain ⟨c', out, cs', h1, h2, h3⟩ := ih _ _ (h.connect e f once prio hn)
        exact ⟨c', out, cs', h1, .connect _ _ _ _ _ _ _ _ hn h2, h3⟩
    | disconnect e f =>
      obtain ⟨c', out, cs', h1, h2, h3⟩ := ih _ _ (h.disconnect e f)
      exact ⟨c', out, cs', h1, .disconnect _ _ _ _ _ _ h2, h3⟩
    | disconnectAll e =>
      cases e with
      | none =>
        obtain ⟨c', out, cs', h1, h2, h3⟩ := ih _ _ Rel.empty
        exact ⟨c', out, cs', h1, .disconnectAll _ _ _ _ h2, h3⟩
      | some e =>
        obtain ⟨c', out, cs', h1, h2, h3⟩ := ih _ _ (h.disconnectAll e)
        exact ⟨c', out, cs', h1, .disconnectEvent _ _ _ _ _ h2, h3⟩
    | emit e alive =>
      obtain ⟨e1, c1, e2, e3⟩ := h.emit alive e
      obtain ⟨c', out, cs', h1, h2, h3⟩ := ih _ _ e3
      let calls : List (Conn E F) := (((c e).getD []).filter (fun o => alive o.func)).map (fun o => ⟨e, o.func, o.once, o.prio⟩)
      refine ⟨c', (e, calls.map (·.func)) :: out, cs', ?_, .emit _ _ _ _ _ _ calls ⟨?_, ?_⟩ h2, h3⟩
      · have hcalls : calls.map (·.func) = (emit alive c e).1 := by
          rw [e1]
          simp [calls, List.map_map, Function.comp_def]
        rw [hcalls]
        rw [run]
        generalize hem : Obs.emit alive c e = em at e2
        obtain ⟨x, y⟩ := em
        subst e2
        simp [h1]
      · have := (h.sorted e).filter (fun o => alive o.func)
        exact List.pairwise_map.2 this
      · intro p
        have := congrArg (fun l => (List.filter (fun o : Observer F => alive o.func) l).map
          (fun o => (⟨e, o.func, o.once, o.prio⟩ : Conn E F))) (h.same e p)
        simp only [List.filter_filter, List.filter_map, List.map_map] at this
        simp only [calls, List.filter_map, List.filter_filter, Function.comp_def] at this ⊢
        rw [show (fun a : Observer F => decide (a.prio = p) && alive a.func) =
          (fun a : Observer F => alive a.func && decide (a.prio = p)) from by funext a; exact Bool.and_comm _ _]
        rw [this]
        have hid : (cs.filter (fun a => alive a.func && decide (a.prio = p) && decide (a.event = e))).map
            (fun x => (⟨e, x.func, x.once, x.prio⟩ : Conn E F)) =
            (cs.filter (fun a => alive a.func && decide (a.prio = p) && decide (a.event = e))).map id := by
          apply List.map_congr_left
          intro x hx
          have := (List.mem_filter.1 hx).2
          simp only [Bool.and_eq_true, decide_eq_true_eq] at this
          cases x
          simp_all
        have heq : (fun a : Conn E F => decide (a.event = e) && (alive a.func && decide (a.prio = p))) =
          (fun a : Conn E F => alive a.func && decide (a.prio = p) && decide (a.event = e)) := by
          funext a; exact Bool.and_comm _ _
        have heq2 : (fun a : Conn E F => alive a.func && decide (a.prio = p) && decide (a.event = e)) =
          (fun a : Conn E F => decide (a.prio = p) && (decide (a.event = e) && alive a.func)) := by
          funext a
          cases alive a.func <;> cases decide (a.prio = p) <;> cases decide (a.event = e) <;> rfl
        first
          | rw [hid, List.map_id, heq2]
          | (simp only [Bool.and_assoc] at hid ⊢; rw [hid, List.map_id]; congr 1; funext a; cases alive a.func <;> cases decide (a.prio = p) <;> cases decide (a.event = e) <;> rfl)

end
end Parce.Obs
