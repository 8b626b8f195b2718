import Verif.Lemmas.Formatter
import Verif.Props.Tree
/-!
# Lemmas for the ranges of a formatter
-/
namespace Parce
variable {α L A F G : Type}

theorem toks_le_stop (l : L) {cs : List (Node α L A)} (hne : cs ≠ []) (hf : FullL cs) (ho : Ordered (toksL cs)) :
    ∀ u ∈ toksL cs, u.stop ≤ (Node.ctx l cs).stop := by
  intro t ht
  obtain ⟨h1, h2, h3⟩ := full_toks (Node.ctx l cs) ⟨hne, hf⟩
  cases hl : (toksL cs).getLast? with
  | none => exact absurd (List.getLast?_eq_none_iff.1 hl) h1
  | some last =>
    simp only [Node.toks, hl] at h3
    have hst : (Node.ctx l cs).stop = last.stop := by simp [Node.stop, h3]
    have := Ordered.upward (P := fun x => decide (t.stop ≤ x.stop)) (fun a b hab h => by
      have h2 := of_decide_eq_true h; apply decide_eq_true; simp only [TokN.stop] at *; omega) ho hl ht (by simp)
    have := of_decide_eq_true this
    omega

theorem ordered_filter {ts : List (TokN α A)} (h : Ordered ts) (p : TokN α A → Bool) : Ordered (ts.filter p) :=
  ⟨fun t ht => h.1 t ((List.mem_filter.1 ht).1), h.2.sublist List.filter_sublist⟩

theorem whole_fc [DecidableEq G] (c : FCaches A F G) (langOf : L → G) (d : FCache A F) (hd : c.default = some d)
    (l : L) (cs : List (Node α L A)) :
    (withFc c langOf d d (fmtEvents c (Node.ctx l cs) ⟨[], [], []⟩)).1 =
      (homesL l cs).map (fun q => (q.2, c.get d (langOf q.1))) := by
  unfold fmtEvents
  rw [hd]
  simp only
  by_cases hs : c.others = []
  · have hget : ∀ g, c.get d g = d := by intro g; simp [FCaches.get, hs]
    rw [if_pos (by simp [hs]), range_full]
    have : (leavesL [] 0 cs).map (fun q => (FEv.tok q.2 : FEv α L A)) = (toksL cs).map FEv.tok := by
      rw [← leavesL_toks cs [] 0, List.map_map]; rfl
    rw [this, withFc_toks]
    simp only [hget]
    rw [← homesL_snd l cs, List.map_map]
    rfl
  · rw [if_neg (by simpa using hs)]
    have h1 : (⟨[], [], []⟩ : Rng).slices = [([], 0, none)] := rfl
    rw [h1]
    simp only [List.flatMap_cons, List.flatMap_nil, List.append_nil]
    have h2 : (sliceNodes (Node.ctx l cs) ([], 0, none)).map (·.2) = cs := by
      simp only [sliceNodes, List.drop_zero, children, Node.kidsAt, Node.at, Option.map_some, Option.getD_some, Node.kids]
      apply List.ext_getElem?
      intro i
      simp [Option.map_map, Function.comp_def]
    have h3 : walkSlice (Node.ctx l cs) ([], 0, none) =
        .lang l :: walkLoop (4 * (Node.ctx l cs).size + 4) (l, cs) cs 0 [] := by
      simp only [walkSlice, Node.at, h2]
    rw [h3, withFc, walkLoop_spec c langOf d _ l cs 0 [] (by simp [Node.size]; omega)]
    simp

/-- The tokens that get a format, with the theme used for them. -/
theorem fmt_tokens [DecidableEq G] (c : FCaches A F G) (langOf : L → G) (d : FCache A F) (hd : c.default = some d)
    (l : L) (cs : List (Node α L A)) (hf : FullL cs) (ho : Ordered (toksL cs)) (start : Nat) (stop : Option Nat)
    (hok : FmtOk c l cs start stop) :
    (∀ e, stop = some e → start < e) ∧
    ∃ r, Rng.fromTree l cs start stop = some r ∧ ∃ ts last, withFc c langOf d d (fmtEvents c (Node.ctx l cs) r) = (ts, last) ∧
      Ordered (ts.map (·.1)) ∧ (∀ q ∈ ts, q.1.touched start stop) ∧
      (∀ q ∈ homesL l cs, q.2.touched start stop → (q.2, c.get d (langOf q.1)) ∈ ts) ∧
      (∀ q ∈ ts, ∃ h ∈ homesL l cs, q = (h.2, c.get d (langOf h.1))) := by
  rcases hok with ⟨hs, hse, u, hu, hut⟩ | ⟨hne, hst, hle⟩
  · have hget : ∀ g, c.get d g = d := by intro g; simp [FCaches.get, hs]
    obtain ⟨r, h1, h2⟩ := range_eq l hf ho start stop hse hu hut.1 hut.2
    refine ⟨hse, r, h1, (r.tokens (Node.ctx l cs)).map (fun q => (q.2, d)), d, ?_, ?_, ?_, ?_, ?_⟩
    · unfold fmtEvents
      rw [hd]
      simp only
      rw [if_pos (by simp [hs])]
      have : (r.tokens (Node.ctx l cs)).map (fun q => (FEv.tok q.2 : FEv α L A)) =
          ((r.tokens (Node.ctx l cs)).map (·.2)).map FEv.tok := by rw [List.map_map]; rfl
      rw [this, withFc_toks, List.map_map]
      rfl
    · have : ((r.tokens (Node.ctx l cs)).map (fun q => (q.2, d))).map (·.1) = (toksL cs).filter (fun t => decide (start < t.stop) &&
          (stop.map (fun e => decide (t.pos < e))).getD true) := by
        rw [h2, List.map_map, ← leavesL_toks cs [] 0, List.filter_map]
        rfl
      rw [this]
      exact ordered_filter ho _
    · intro q hq
      obtain ⟨x, hx, rfl⟩ := List.mem_map.1 hq
      rw [h2] at hx
      obtain ⟨_, hx⟩ := List.mem_filter.1 hx
      simp only [Bool.and_eq_true, decide_eq_true_eq] at hx
      refine ⟨hx.1, fun e he => ?_⟩
      subst he
      simpa using hx.2
    · intro q hq ht
      rw [hget]
      have hmem : q.2 ∈ toksL cs := by rw [← homesL_snd l cs]; exact List.mem_map_of_mem hq
      rw [← leavesL_toks cs [] 0] at hmem
      obtain ⟨x, hx, hxq⟩ := List.mem_map.1 hmem
      refine List.mem_map.2 ⟨x, ?_, by rw [hxq]⟩
      rw [h2]
      refine List.mem_filter.2 ⟨hx, ?_⟩
      rw [hxq]
      simp only [Bool.and_eq_true, decide_eq_true_eq]
      refine ⟨ht.1, ?_⟩
      cases stop with
      | none => rfl
      | some e => simpa using ht.2 e rfl
    · intro q hq
      obtain ⟨x, hx, rfl⟩ := List.mem_map.1 hq
      rw [h2] at hx
      have hx := List.mem_map_of_mem (f := (·.2)) (List.mem_filter.1 hx).1
      rw [leavesL_toks, ← homesL_snd l cs] at hx
      obtain ⟨h, hh, he⟩ := List.mem_map.1 hx
      exact ⟨h, hh, by rw [hget, he]⟩
  · subst hst
    have hpos : ∀ u ∈ toksL cs, u.pos < u.stop := by
      intro u hu
      have := List.length_pos_iff.2 (ho.1 u hu)
      simp only [TokN.stop]
      omega
    have hall : ∀ u ∈ toksL cs, u.touched 0 stop := by
      intro u hu
      have h1 := hpos u hu
      have h2 := toks_le_stop l hne hf ho u hu
      exact ⟨by omega, fun e he => by have := hle e he; omega⟩
    have hsome : ∃ u, u ∈ toksL cs := by
      obtain ⟨h1, _⟩ := full_toks (Node.ctx l cs) ⟨hne, hf⟩
      cases h : toksL cs with
      | nil => exact absurd h h1
      | cons u us => exact ⟨u, by simp⟩
    obtain ⟨u, hu⟩ := hsome
    have hr : Rng.fromTree l cs 0 stop = some ⟨[], [], []⟩ := by
      unfold Rng.fromTree
      rw [if_neg hne]
      have : endTrailOf l cs 0 stop = some [] := by
        cases stop with
        | none => rfl
        | some e =>
          have := hle e rfl
          simp only [endTrailOf]
          rw [if_neg (by omega)]
      rw [this]
      simp
    refine ⟨fun e he => by have := (hall u hu).2 e he; omega, _, hr, _, _, rfl, ?_, ?_, ?_, ?_⟩
    · rw [whole_fc c langOf d hd l cs]
      have : ((homesL l cs).map (fun q => (q.2, c.get d (langOf q.1)))).map (·.1) = toksL cs := by
        rw [List.map_map, ← homesL_snd l cs]; rfl
      rw [this]
      exact ho
    · intro q hq
      rw [whole_fc c langOf d hd l cs] at hq
      obtain ⟨h, hh, rfl⟩ := List.mem_map.1 hq
      exact hall h.2 (by rw [← homesL_snd l cs]; exact List.mem_map_of_mem hh)
    · intro q hq _
      rw [whole_fc c langOf d hd l cs]
      exact List.mem_map.2 ⟨q, hq, rfl⟩
    · intro q hq
      rw [whole_fc c langOf d hd l cs] at hq
      obtain ⟨h, hh, rfl⟩ := List.mem_map.1 hq
      exact ⟨h, hh, rfl⟩

end Parce
