import Verif.Spec.Transform
import Verif.Lemmas.Build
/-!
# Lemmas for transforming text
-/
namespace Parce
variable {α L A R G N I : Type}

theorem itmL_append (env : TrEnv α L A R G N) (u : Bool) (a b : List (Node α L A)) :
    itmL env u (a ++ b) = itmL env u a ++ itmL env u b := by
  induction a with
  | nil => simp [itmL]
  | cons n ns ih => simp [itmL, ih]

theorem itmL_toks (env : TrEnv α L A R G N) (u : Bool) (ts : List (TokN α A)) :
    itmL env u (ts.map .tok) = ts.map .tok := by
  induction ts with
  | nil => simp [itmL]
  | cons t ts ih => simp [itmL, Node.itm, ih]

theorem look_eq [DecidableEq G] (env : TrEnv α L A R G N) (cur : G) (l : L) :
    env.look cur l = (env.language l, env.meth l) := by
  unfold TrEnv.look TrEnv.meth
  by_cases h : env.language l = cur
  · simp [h]
  · simp [h]

/-! ## Frames above a context -/

def BState.addToks (b : BState α L A) (lxs : List (Lexeme α A)) : BState α L A :=
  { b with cur := { b.cur with kids := b.cur.kids ++ (makeTokens lxs).map .tok } }

theorem event_eq (b : BState α L A) (e : Event α L A) : b.event e = (b.target e.target).addToks e.lexemes := rfl

theorem leaves_add (m n : Nat) (b : BState α L A) : b.leaves (m + n) = (b.leaves m).leaves n := by
  induction m generalizing b with
  | zero => simp [BState.leaves]
  | succ m ih =>
    rw [Nat.succ_add]
    exact ih b.leave

/-- `n` contexts are open in the context `f`; the outermost has the lexicon `l`. -/
def Over (f : Frame α L A) (up : List (Frame α L A)) (l : L) (n : Nat) (b : BState α L A) : Prop :=
  ∃ xs x, b = ⟨x, xs ++ f :: up⟩ ∧ xs.length + 1 = n ∧ ((x :: xs).getLast?).map (·.lex) = some l

section
variable {f : Frame α L A} {up : List (Frame α L A)} {l : L} {n : Nat} {b : BState α L A}

theorem Over.leave (h : Over f up l n b) (hn : 1 < n) : Over f up l (n - 1) b.leave := by
  obtain ⟨xs, x, rfl, hl, hg⟩ := h
  cases xs with
  | nil => simp at hl; omega
  | cons y ys =>
    refine ⟨ys, ⟨y.lex, y.kids ++ [.ctx x.lex x.kids]⟩, rfl, by simp at hl; omega, ?_⟩
    cases ys with
    | nil => simpa using hg
    | cons z zs => simpa [List.getLast?_cons_cons] using hg

theorem Over.leaves (k : Nat) (h : Over f up l n b) (hk : k < n) : Over f up l (n - k) (b.leaves k) := by
  induction k generalizing b n with
  | zero => exact h
  | succ k ih =>
    have := ih (h.leave (by omega)) (by omega)
    rw [show n - 1 - k = n - (k + 1) from by omega] at this
    exact this

theorem Over.exit (h : Over f up l n b) : ∃ ds, b.leaves n = ⟨⟨f.lex, f.kids ++ [.ctx l ds]⟩, up⟩ := by
  have hn : 1 ≤ n := by obtain ⟨xs, x, _, hl, _⟩ := h; omega
  have h1 := h.leaves (n - 1) (by omega)
  rw [show n - (n - 1) = 1 from by omega] at h1
  obtain ⟨xs, x, hb, hl, hg⟩ := h1
  have hxs : xs = [] := by cases xs with
    | nil => rfl
    | cons _ _ => simp at hl
  subst hxs
  have he : n = (n - 1) + 1 := by omega
  rw [he, leaves_add, hb]
  simp at hg
  subst hg
  exact ⟨x.kids, rfl⟩

theorem Over.enter (h : Over f up l n b) (l' : L) : Over f up l (n + 1) (b.enter l') := by
  obtain ⟨xs, x, rfl, hl, hg⟩ := h
  exact ⟨x :: xs, ⟨l', []⟩, rfl, by simp [hl], by simpa [List.getLast?_cons_cons] using hg⟩

theorem Over.enters (ls : List L) (h : Over f up l n b) : Over f up l (n + ls.length) (ls.foldl BState.enter b) := by
  induction ls generalizing b n with
  | nil => exact h
  | cons l' ls ih =>
    have := ih (h.enter l')
    rw [show n + 1 + ls.length = n + (l' :: ls).length from by simp; omega] at this
    exact this

theorem Over.addToks (h : Over f up l n b) (lxs : List (Lexeme α A)) : Over f up l n (b.addToks lxs) := by
  obtain ⟨xs, x, rfl, hl, hg⟩ := h
  refine ⟨xs, _, rfl, hl, ?_⟩
  cases xs with
  | nil => simpa using hg
  | cons z zs => simpa [List.getLast?_cons_cons] using hg

theorem Over.mem (h : Over f up l n b) : l ∈ b.lexs := by
  obtain ⟨xs, x, rfl, hl, hg⟩ := h
  obtain ⟨y, hy, rfl⟩ := Option.map_eq_some_iff.1 hg
  have := List.mem_of_getLast? hy
  simp only [BState.lexs, List.mem_cons, List.map_append, List.mem_append] at this ⊢
  rcases this with rfl | h
  · exact Or.inl rfl
  · exact Or.inr (Or.inl (List.mem_map_of_mem h))

theorem over_new (b : BState α L A) (l : L) (ls : List L) :
    Over b.cur b.up l (ls.length + 1) ((l :: ls).foldl BState.enter b) := by
  have : Over b.cur b.up l 1 (b.enter l) := ⟨[], ⟨l, []⟩, rfl, rfl, rfl⟩
  have := this.enters ls
  rwa [Nat.add_comm] at this
end

theorem target_mk (b : BState α L A) (k : Nat) (push : List L) :
    b.target (mkTarget k push) = push.foldl BState.enter (b.leaves k) := by
  unfold mkTarget
  split
  · rfl
  · next h =>
    have h1 : k = 0 := Decidable.byContradiction (fun h' => h (Or.inl h'))
    have h2 : push = [] := Decidable.byContradiction (fun h' => h (Or.inr h'))
    rw [h1, h2]
    rfl

theorem mkTarget_pop {k : Nat} {push : List L} {t : Target L} (h : mkTarget k push = some t) : t.pop = k := by
  unfold mkTarget at h
  split at h
  · cases h; rfl
  · cases h

/-- What `consume` does for the tree under construction. -/
theorem consume_spec {f : Frame α L A} {up : List (Frame α L A)} {l : L} : (es : List (Event α L A)) → {n : Nat} →
    {b : BState α L A} → Over f up l n b → KeepsRoot b.lexs es →
    (consume n es = none → ∃ n', Over f up l n' (es.foldl BState.event b)) ∧
    (∀ e es', consume n es = some (e, es') → ∃ ds, 
      es.foldl BState.event b = es'.foldl BState.event ((BState.mk ⟨f.lex, f.kids ++ [.ctx l ds]⟩ up).event e) ∧
      KeepsRoot (BState.mk ⟨f.lex, f.kids ++ [.ctx l ds]⟩ up).lexs (e :: es') ∧ es'.length < es.length ∧
      (∃ e0 ∈ es, e0.lexemes = e.lexemes) ∧ ∀ x ∈ es', x ∈ es)
  | [], n, b, h, _ => ⟨fun _ => ⟨n, h⟩, fun _ _ h => by simp [consume] at h⟩
  | e :: es, n, b, h, hk => by
    have hlex := event_lexs e b hk.1
    have hk2 : KeepsRoot (b.event e).lexs es := by rw [hlex.1]; exact hk.2
    have lift : ∀ {n'}, Over f up l n' (b.event e) → consume n (e :: es) = consume n' es →
        (consume n (e :: es) = none → ∃ n', Over f up l n' ((e :: es).foldl BState.event b)) ∧
        (∀ e' es', consume n (e :: es) = some (e', es') → ∃ ds, 
          (e :: es).foldl BState.event b = es'.foldl BState.event ((BState.mk ⟨f.lex, f.kids ++ [.ctx l ds]⟩ up).event e') ∧
          KeepsRoot (BState.mk ⟨f.lex, f.kids ++ [.ctx l ds]⟩ up).lexs (e' :: es') ∧ es'.length < (e :: es).length ∧
          (∃ e0 ∈ e :: es, e0.lexemes = e'.lexemes) ∧ ∀ x ∈ es', x ∈ e :: es) := by
      intro n' ho hc
      obtain ⟨h1, h2⟩ := consume_spec es ho hk2
      rw [hc]
      refine ⟨h1, fun e' es' he => ?_⟩
      obtain ⟨ds, h3, h4, h5, ⟨e0, h6, h7⟩, h8⟩ := h2 e' es' he
      exact ⟨ds, h3, h4, by simp; omega, ⟨e0, List.mem_cons_of_mem _ h6, h7⟩, fun x hx => List.mem_cons_of_mem _ (h8 x hx)⟩
    cases ht : e.target with
    | none =>
      refine lift (n' := n) ?_ (by simp [consume, ht])
      rw [event_eq, ht]
      exact h.addToks _
    | some t =>
      have hpop := hk.1 t ht
      by_cases hle : n ≤ t.pop
      · have hc : consume n (e :: es) = some (⟨mkTarget (t.pop - n) t.push, e.lexemes⟩, es) := by
          simp [consume, ht, hle]
        rw [hc]
        refine ⟨fun h => (by cases h), fun e' es' he => ?_⟩
        simp only [Option.some.injEq, Prod.mk.injEq] at he
        obtain ⟨rfl, rfl⟩ := he
        obtain ⟨ds, hds⟩ := h.exit
        have hev : b.event e = (BState.mk ⟨f.lex, f.kids ++ [.ctx l ds]⟩ up).event ⟨mkTarget (t.pop - n) t.push, e.lexemes⟩ := by
          rw [event_eq, event_eq]
          simp only [ht, target_mk]
          rw [← hds, ← leaves_add, show n + (t.pop - n) = t.pop from by omega]
          rfl
        have hn : n < b.lexs.length := by omega
        have hl0 := (leaves_lexs n b hn).1
        rw [hds] at hl0
        have hroot : ∀ u, mkTarget (t.pop - n) t.push = some u →
            u.pop < (BState.mk ⟨f.lex, f.kids ++ [.ctx l ds]⟩ up).lexs.length := by
          intro u hu
          rw [mkTarget_pop hu, hl0, List.length_drop]
          omega
        refine ⟨ds, by rw [List.foldl_cons, hev], ⟨hroot, ?_⟩, by simp, ⟨e, List.mem_cons_self, rfl⟩,
          fun x hx => List.mem_cons_of_mem _ hx⟩
        have := (event_lexs ⟨mkTarget (t.pop - n) t.push, e.lexemes⟩ (BState.mk ⟨f.lex, f.kids ++ [.ctx l ds]⟩ up) hroot).1
        rw [← this, ← hev]
        exact hk2
      · refine lift (n' := n - t.pop + t.push.length) ?_ (by simp [consume, ht, hle])
        rw [event_eq, ht]
        exact ((h.leaves t.pop (by omega)).enters t.push).addToks _

/-! ## The state of `transform_text` and the tree -/

def StackRel (env : TrEnv α L A R G N) : L → List (TxEntry α L A R N) → List (Frame α L A) → Prop
  | _, [], [] => True
  | c, e :: st, f :: up => env.meth c = some e.meth ∧ e.name = env.name c ∧
      (∃ m, env.meth f.lex = some m ∧ e.addU = m.addU ∧ e.items = ⟨f.lex, itmL env m.addU f.kids⟩) ∧ StackRel env f.lex st up
  | _, _, _ => False

def TxRel (env : TrEnv α L A R G N) (s : TxS α L A R G N) (b : BState α L A) : Prop :=
  (∃ m, env.meth b.cur.lex = some m ∧ s.addU = m.addU ∧ s.items = ⟨b.cur.lex, itmL env m.addU b.cur.kids⟩) ∧
  StackRel env b.cur.lex s.stack b.up

section
variable {env : TrEnv α L A R G N} {s : TxS α L A R G N} {b : BState α L A}

theorem TxRel.pop (h : TxRel env s b) (hu : b.up ≠ []) : ∃ s', s.pop = .ok s' ∧ TxRel env s' b.leave := by
  obtain ⟨cur, items, stack, addU⟩ := s
  obtain ⟨c, up⟩ := b
  obtain ⟨⟨m, hm, _, hi⟩, hst⟩ := h
  simp only at hm hi hst
  cases up with
  | nil => exact absurd rfl hu
  | cons f up =>
    cases stack with
    | nil => simp [StackRel] at hst
    | cons e st =>
      obtain ⟨h1, h2, ⟨m', h3, h4, h5⟩, h6⟩ := hst
      refine ⟨_, rfl, ⟨m', h3, h4, ?_⟩, h6⟩
      rw [hm] at h1
      cases h1
      simp only [BState.leave, h5, ItemList.add, itmL_append, itmL, Node.itm, hm, h2, hi, List.append_nil]

theorem TxRel.pops (n : Nat) (h : TxRel env s b) (hu : n ≤ b.up.length) : ∃ s', s.pops n = .ok s' ∧ TxRel env s' (b.leaves n) := by
  induction n generalizing s b with
  | zero => exact ⟨s, rfl, h⟩
  | succ n ih =>
    obtain ⟨s1, h1, h2⟩ := h.pop (by intro h0; simp [h0] at hu)
    have hl : n ≤ b.leave.up.length := by
      obtain ⟨c, up⟩ := b
      cases up with
      | nil => simp at hu
      | cons f up => simpa [BState.leave] using hu
    obtain ⟨s2, h3, h4⟩ := ih h2 hl
    refine ⟨s2, ?_, h4⟩
    simp only [TxS.pops, h1]
    exact h3

theorem TxRel.push [DecidableEq G] (ls : List L) (h : TxRel env s b) : ∃ pre, ls = pre ++ (s.push env ls).2 ∧
    TxRel env (s.push env ls).1 (pre.foldl BState.enter b) ∧ ∀ l rest, (s.push env ls).2 = l :: rest → env.meth l = none := by
  induction ls generalizing s b with
  | nil => exact ⟨[], rfl, h, fun l rest h => by simp [TxS.push] at h⟩
  | cons l ls ih =>
    simp only [TxS.push, look_eq]
    cases hm : env.meth l with
    | none =>
      refine ⟨[], rfl, h, fun l' rest h => ?_⟩
      simp only [List.cons.injEq] at h
      rw [← h.1, hm]
    | some m =>
      have hrel : TxRel env ⟨env.language l, ⟨l, []⟩, ⟨s.items, m, env.name l, s.addU⟩ :: s.stack, m.addU⟩ (b.enter l) := by
        obtain ⟨⟨m', h1, h2, h3⟩, h4⟩ := h
        refine ⟨⟨m, hm, rfl, ?_⟩, hm, rfl, ⟨m', h1, h2, h3⟩, h4⟩
        simp [BState.enter, itmL]
      obtain ⟨pre, h1, h2, h3⟩ := ih hrel
      exact ⟨l :: pre, by rw [List.cons_append, ← h1], h2, h3⟩

theorem TxRel.addToks (h : TxRel env s b) (lxs : List (Lexeme α A)) :
    TxRel env { s with items := s.items.add ((makeTokens lxs).map .tok) } (b.addToks lxs) := by
  obtain ⟨⟨m, h1, h2, h3⟩, h4⟩ := h
  refine ⟨⟨m, h1, h2, ?_⟩, h4⟩
  simp only [BState.addToks, h3, ItemList.add, itmL_append, itmL_toks]

theorem TxRel.skip (h : TxRel env s b) (hs : s.addU = false) {l : L} (hl : env.meth l = none) (ds : List (Node α L A)) :
    TxRel env s ⟨⟨b.cur.lex, b.cur.kids ++ [.ctx l ds]⟩, b.up⟩ := by
  obtain ⟨⟨m, h1, h2, h3⟩, h4⟩ := h
  refine ⟨⟨m, h1, h2, ?_⟩, h4⟩
  rw [h3, itmL_append]
  rw [h2] at hs
  simp [itmL, Node.itm, hl, hs]

theorem TxRel.lexs (h : TxRel env s b) : ∀ l ∈ b.lexs, env.meth l ≠ none := by
  obtain ⟨cur, items, stack, addU⟩ := s
  obtain ⟨c, up⟩ := b
  obtain ⟨⟨m, h1, _, _⟩, h4⟩ := h
  simp only [BState.lexs] at h1 h4 ⊢
  have key : ∀ (up : List (Frame α L A)) (stack : List (TxEntry α L A R N)) (c : L), StackRel env c stack up →
      ∀ l ∈ up.map (·.lex), env.meth l ≠ none := by
    intro up
    induction up with
    | nil => intro _ _ _ l hl; simp at hl
    | cons f up ih =>
      intro stack c h l hl
      cases stack with
      | nil => simp [StackRel] at h
      | cons e st =>
        obtain ⟨_, _, ⟨m, h3, _⟩, h6⟩ := h
        rcases List.mem_cons.1 hl with rfl | hl
        · rw [h3]; simp
        · exact ih st f.lex h6 l hl
  intro l hl
  rcases List.mem_cons.1 hl with rfl | hl
  · rw [h1]; simp
  · exact key up stack _ h4 l hl

theorem TxRel.unwind (rootM : Meth α L A R N) : (up : List (Frame α L A)) → {s : TxS α L A R G N} → {c : Frame α L A} →
    TxRel env s ⟨c, up⟩ → (((c :: up).getLast?).bind (fun f => env.meth f.lex) = some rootM) →
    env.value (BState.close ⟨c, up⟩) = some (txUnwind rootM s.items s.stack)
  | [], s, c, h, hr => by
    obtain ⟨⟨m, h1, h2, h3⟩, h4⟩ := h
    obtain ⟨cur, items, stack, addU⟩ := s
    simp only at h1 h2 h3 h4
    have hst : stack = [] := by cases stack with
      | nil => rfl
      | cons _ _ => simp [StackRel] at h4
    subst hst
    simp only [List.getLast?_singleton, Option.bind_some] at hr
    rw [h1] at hr
    cases hr
    simp [BState.close, TrEnv.value, h1, txUnwind, h3]
  | f :: up, s, c, h, hr => by
    obtain ⟨s', hp, h'⟩ := h.pop (by simp)
    have hstep := TxRel.unwind rootM up (c := ⟨f.lex, f.kids ++ [.ctx c.lex c.kids]⟩) h' (by
      cases up with
      | nil => simpa [List.getLast?_cons_cons] using hr
      | cons g gs => simpa [List.getLast?_cons_cons] using hr)
    have hc : BState.close ⟨c, f :: up⟩ = BState.close ⟨⟨f.lex, f.kids ++ [.ctx c.lex c.kids]⟩, up⟩ := rfl
    rw [hc, hstep]
    obtain ⟨cur, items, stack, addU⟩ := s
    cases stack with
    | nil => simp [TxS.pop] at hp
    | cons e st =>
      simp only [TxS.pop] at hp
      cases hp
      simp [txUnwind]
end

theorem target_spec [DecidableEq G] {env : TrEnv α L A R G N} (hU : NoRaw env) : (fuel : Nat) → {s : TxS α L A R G N} →
    {b : BState α L A} → (tg : Option (Target L)) → (lxs : List (Lexeme α A)) → (es : List (Event α L A)) → TxRel env s b →
    KeepsRoot b.lexs (⟨tg, lxs⟩ :: es) → lxs ≠ [] → (∀ e ∈ es, e.lexemes ≠ []) → es.length + 2 ≤ fuel →
    ∃ s' lxs' es', TxS.target env fuel s tg lxs es = .ok (s', lxs', es') ∧
      ((lxs' ≠ [] ∧ (∀ e ∈ es', e.lexemes ≠ []) ∧ es'.length ≤ es.length ∧ ∃ b', TxRel env s' b' ∧
        es.foldl BState.event (b.event ⟨tg, lxs⟩) = es'.foldl BState.event (b'.addToks lxs') ∧ KeepsRoot b'.lexs es') ∨
      (lxs' = [] ∧ ∃ l ∈ (es.foldl BState.event (b.event ⟨tg, lxs⟩)).lexs, env.meth l = none))
  | 0, _, _, _, _, _, _, _, _, _, hf => absurd hf (by omega)
  | fuel + 1, s, b, none, lxs, es, h, hk, hl, hes, hf => by
    refine ⟨s, lxs, es, rfl, Or.inl ⟨hl, hes, Nat.le_refl _, b, h, rfl, ?_⟩⟩
    exact hk.2
  | fuel + 1, s, b, some t, lxs, es, h, hk, hl, hes, hf => by
    have hpop := hk.1 t rfl
    have hlen : t.pop ≤ b.up.length := by
      have : b.lexs.length = b.up.length + 1 := by simp [BState.lexs]
      omega
    obtain ⟨s1, hs1, h1⟩ := h.pops t.pop hlen
    obtain ⟨pre, hpre, h2, h3⟩ := h1.push t.push
    simp only [TxS.target, hs1, Except.bind]
    have hev := event_lexs ⟨some t, lxs⟩ b hk.1
    by_cases hr : (s1.push env t.push).2 = []
    · rw [if_pos hr]
      rw [hr, List.append_nil] at hpre
      refine ⟨_, _, _, rfl, Or.inl ⟨hl, hes, Nat.le_refl _, _, h2, ?_, ?_⟩⟩
      · rw [event_eq]
        simp only [BState.target]
        rw [← hpre]
      · have := hk.2
        rw [← hev.1] at this
        simp only [event_eq, BState.target] at this
        rw [← hpre]
        exact this
    · rw [if_neg hr]
      cases hrest : (s1.push env t.push).2 with
      | nil => exact absurd hrest hr
      | cons l rest =>
        have hml := h3 l rest hrest
        have haddU : (s1.push env t.push).1.addU = false := by
          rcases hU with hU | hU
          · obtain ⟨⟨m, hm1, hm2, _⟩, _⟩ := h2
            rw [hm2]
            exact hU _ _ hm1
          · exact absurd hml (hU l)
        rw [haddU]
        simp only [Bool.false_eq_true, ↓reduceIte]
        have hover : Over (pre.foldl BState.enter (b.leaves t.pop)).cur (pre.foldl BState.enter (b.leaves t.pop)).up l
            (l :: rest).length (b.event ⟨some t, lxs⟩) := by
          rw [event_eq]
          apply Over.addToks
          simp only [BState.target]
          rw [hpre, hrest, List.foldl_append]
          exact over_new _ l rest
        have hk2 : KeepsRoot (b.event ⟨some t, lxs⟩).lexs es := by rw [hev.1]; exact hk.2
        obtain ⟨hc1, hc2⟩ := consume_spec es hover hk2
        cases hc : consume (l :: rest).length es with
        | none =>
          obtain ⟨n', ho⟩ := hc1 hc
          exact ⟨_, _, _, rfl, Or.inr ⟨rfl, l, ho.mem, hml⟩⟩
        | some p =>
          obtain ⟨e, es'⟩ := p
          obtain ⟨ds, h4, h5, h6, ⟨e0, h7, h8⟩, h9⟩ := hc2 e es' hc
          have hrel := h2.skip haddU hml ds
          obtain ⟨s', lxs', es'', h10, h11⟩ := target_spec hU fuel e.target e.lexemes es' hrel h5
            (h8 ▸ hes e0 h7) (fun x hx => hes x (h9 x hx)) (by omega)
          refine ⟨s', lxs', es'', h10, ?_⟩
          rw [h4]
          rcases h11 with ⟨g1, g2, g3, g4⟩ | g
          · exact Or.inl ⟨g1, g2, by omega, g4⟩
          · exact Or.inr g

theorem txEvents_spec [DecidableEq G] {env : TrEnv α L A R G N} (hU : NoRaw env) : (fuel : Nat) → {s : TxS α L A R G N} →
    {b : BState α L A} → (es : List (Event α L A)) → TxRel env s b → KeepsRoot b.lexs es → (∀ e ∈ es, e.lexemes ≠ []) →
    es.length ≤ fuel →
    (∃ s', TxS.events env fuel s es = .ok s' ∧ TxRel env s' (es.foldl BState.event b)) ∨
    (TxS.events env fuel s es = .error .index ∧ ∃ l ∈ (es.foldl BState.event b).lexs, env.meth l = none)
  | _, s, b, [], h, _, _, _ => Or.inl ⟨s, by simp [TxS.events], h⟩
  | 0, _, _, _ :: _, _, _, _, hf => absurd hf (by simp)
  | fuel + 1, s, b, e :: es, h, hk, hes, hf => by
    obtain ⟨s', lxs', es', h1, h2⟩ := target_spec hU (es.length + 2) e.target e.lexemes es h hk (hes e List.mem_cons_self)
      (fun x hx => hes x (List.mem_cons_of_mem _ hx)) (Nat.le_refl _)
    simp only [TxS.events, h1, Except.bind, List.foldl_cons]
    rcases h2 with ⟨g1, g2, g3, b', g4, g5, g6⟩ | ⟨g1, g2⟩
    · rw [if_neg g1]
      rw [show b.event e = b.event ⟨e.target, e.lexemes⟩ from rfl, g5]
      exact txEvents_spec hU fuel es' (g4.addToks lxs') g6 g2 (by simp at hf; omega)
    · rw [if_pos g1]
      exact Or.inr ⟨rfl, g2⟩

end Parce
