import Verif.Spec.Nodes
import Verif.Lemmas.Range
import Verif.Lemmas.QueryLoop
import Verif.Lemmas.QueryDelete
/-!
# Lemmas for Node.delete
-/
namespace Parce.Nd
open Parce
variable {α L A : Type}

/-! ### Replacing a node -/

def put : Node α L A → List Nat → Node α L A → Node α L A
  | _, [], x => x
  | .ctx l cs, j :: p, x => .ctx l (cs.modify j (fun n => put n p x))
  | .tok t, _ :: _, _ => .tok t
termination_by structural _ p => p

/-- The children of a node are replaced. -/
def withKids : Node α L A → List (Node α L A) → Node α L A
  | .ctx l _, cs => .ctx l cs
  | .tok t, _ => .tok t

theorem put_at : (p : List Nat) → (root x s : Node α L A) → root.at p = some s → (put root p x).at p = some x
  | [], _, _, _, _ => rfl
  | i :: p, .tok t, x, s, h => by simp [Node.at, Node.kids] at h
  | i :: p, .ctx l cs, x, s, h => by
    obtain ⟨m, hm, h'⟩ := at_cons h
    simp only [put, Node.at, Node.kids, List.getElem?_modify_eq]
    rw [show cs[i]? = some m from hm]
    exact put_at p m x s h'

theorem put_put_snoc : (p : List Nat) → (i : Nat) → (root x s : Node α L A) → root.at p = some s →
    put root (p ++ [i]) x = put root p (withKids s (s.kids.modify i (fun _ => x)))
  | [], i, root, x, s, h => by
    simp only [Node.at, Option.some.injEq] at h
    subst h
    cases root <;> rfl
  | j :: p, i, .tok t, x, s, h => by simp [Node.at, Node.kids] at h
  | j :: p, i, .ctx l cs, x, s, h => by
    obtain ⟨m, hm, h'⟩ := at_cons h
    simp only [List.cons_append, put]
    congr 1
    apply List.ext_getElem?
    intro k
    by_cases hk : j = k
    · subst hk
      rw [List.getElem?_modify_eq, List.getElem?_modify_eq, show cs[j]? = some m from hm]
      exact congrArg some (put_put_snoc p i m x s h')
    · rw [List.getElem?_modify_ne _ _ hk, List.getElem?_modify_ne _ _ hk]

theorem delChild_put : (p : List Nat) → (i : Nat) → (root y s : Node α L A) → root.at p = some s →
    delChild (put root p y) p i = put root p (withKids y (y.kids.eraseIdx i))
  | [], i, root, y, s, h => by cases y <;> rfl
  | j :: p, i, .tok t, y, s, h => by simp [Node.at, Node.kids] at h
  | j :: p, i, .ctx l cs, y, s, h => by
    obtain ⟨m, hm, h'⟩ := at_cons h
    simp only [put, delChild]
    congr 1
    apply List.ext_getElem?
    intro k
    by_cases hk : j = k
    · subst hk
      rw [List.getElem?_modify_eq, List.getElem?_modify_eq, List.getElem?_modify_eq, show cs[j]? = some m from hm]
      exact congrArg some (delChild_put p i m y s h')
    · rw [List.getElem?_modify_ne _ _ hk, List.getElem?_modify_ne _ _ hk, List.getElem?_modify_ne _ _ hk]

theorem put_same : (p : List Nat) → (root s : Node α L A) → root.at p = some s → put root p s = root
  | [], root, s, h => by simp only [Node.at, Option.some.injEq] at h; exact h.symm
  | j :: p, .tok t, s, h => rfl
  | j :: p, .ctx l cs, s, h => by
    obtain ⟨m, hm, h'⟩ := at_cons h
    simp only [put]
    congr 1
    apply List.ext_getElem?
    intro k
    by_cases hk : j = k
    · subst hk
      rw [List.getElem?_modify_eq, show cs[j]? = some m from hm]
      exact congrArg some (put_same p m s h')
    · rw [List.getElem?_modify_ne _ _ hk]

theorem put_put : (p : List Nat) → (root x y s : Node α L A) → root.at p = some s → put (put root p x) p y = put root p y
  | [], root, x, y, s, h => rfl
  | j :: p, .tok t, x, y, s, h => rfl
  | j :: p, .ctx l cs, x, y, s, h => by
    obtain ⟨m, hm, h'⟩ := at_cons h
    simp only [put]
    congr 1
    apply List.ext_getElem?
    intro k
    by_cases hk : j = k
    · subst hk
      rw [List.getElem?_modify_eq, List.getElem?_modify_eq, List.getElem?_modify_eq, show cs[j]? = some m from hm]
      exact congrArg some (put_put p m x y s h')
    · rw [List.getElem?_modify_ne _ _ hk, List.getElem?_modify_ne _ _ hk, List.getElem?_modify_ne _ _ hk]

/-! ### The loop from the top -/

def stay : List (Node α L A) → Option (List Nat)
  | [] => none
  | _ :: _ => some []

theorem stay_pos {cs : List (Node α L A)} (h : cs ≠ []) : stay cs = some [] := by
  cases cs with
  | nil => exact absurd rfl h
  | cons c cs => rfl

theorem stay_neg {cs : List (Node α L A)} (h : ¬ cs ≠ []) : stay cs = none := by
  rw [Classical.not_not.1 h]
  rfl

/-- What the loop does in the subtree `sub`, for the node at the path below it. `none`: the loop
    goes on with the subtree itself. -/
def inner : Node α L A → List Nat → Node α L A × Option (List Nat)
  | sub, [] => (sub, none)
  | sub, i :: rest =>
    match sub.kids[i]? with
    | none => (sub, none)
    | some m =>
      let r := inner m rest
      let kids := sub.kids.modify i (fun _ => r.1)
      match r.2 with
      | some a => (withKids sub kids, some (i :: a))
      | none =>
        let kids' := kids.eraseIdx (parentIndex kids i)
        (withKids sub kids', stay kids')
termination_by structural _ p => p

theorem withKids_kids {n : Node α L A} (h : n.isCtx = true) (cs : List (Node α L A)) : (withKids n cs).kids = cs := by
  cases n with
  | tok t => simp [Node.isCtx] at h
  | ctx l ds => rfl

theorem withKids_twice (n : Node α L A) (cs ds : List (Node α L A)) : withKids (withKids n cs) ds = withKids n ds := by
  cases n <;> rfl

theorem loop_inner (root : Node α L A) : (rel base : List Nat) → (sub : Node α L A) → root.at base = some sub →
    (∃ n, sub.at rel = some n) →
    deleteLoop root ((base ++ rel).reverse) =
      match inner sub rel with
      | (x, some a) => (put root base x, some (base ++ a))
      | (x, none) => deleteLoop (put root base x) base.reverse
  | [], base, sub, hb, _ => by
    simp only [inner, List.append_nil, put_same base root sub hb]
  | i :: rest, base, sub, hb, hn => by
    obtain ⟨n, hn⟩ := hn
    obtain ⟨m, hm, hn'⟩ := at_cons hn
    have hctx := isCtx_of_kid hm
    have ih := loop_inner root rest (base ++ [i]) m (at_snoc hb hm) ⟨n, hn'⟩
    rw [List.append_assoc, List.singleton_append] at ih
    rw [ih]
    simp only [inner, hm]
    cases hr : inner m rest with
    | mk x r =>
      cases r with
      | some a =>
        simp only [put_put_snoc base i root x sub hb, List.append_assoc, List.singleton_append]
      | none =>
        simp only [List.reverse_append, List.reverse_cons, List.reverse_nil, List.nil_append, List.singleton_append,
          deleteLoop, List.reverse_reverse]
        rw [put_put_snoc base i root x sub hb]
        have hk : ∀ ys, (put root base (withKids sub ys)).kidsAt base = ys := by
          intro ys
          simp only [Node.kidsAt, put_at base root _ sub hb, Option.map_some, Option.getD_some, withKids_kids hctx]
        rw [hk, delChild_put base _ root _ sub hb, withKids_twice, withKids_kids hctx, hk]
        split
        · next h => rw [stay_pos h]; simp
        · next h => rw [stay_neg h]

/-! ### The index of a context that became empty -/

theorem emptyLoop_hit (cs : List (Node α L A)) (i : Nat) : ∀ (fuel hi : Nat), hi ≤ fuel → Looked hi i →
    parentIndexLoop cs 0 i fuel 0 hi = i := by
  intro fuel
  induction fuel with
  | zero =>
    rintro hi hle ⟨k, rfl⟩
    obtain rfl : hi = 0 := by omega
    simp [parentIndexLoop]
  | succ fuel ih =>
    rintro hi hle ⟨k, hk⟩
    simp only [parentIndexLoop, Nat.zero_add]
    split
    · next h =>
      have hno : nodeIs cs (fun n => decide (n.pos < 0)) (hi / 2) = false := by
        simp only [nodeIs]
        cases cs[hi / 2]? <;> simp
      rw [hno]
      simp only [Bool.false_eq_true, if_false]
      split
      · next h2 => exact h2
      · next h2 =>
        refine ih (hi / 2) (by omega) ?_
        cases k with
        | zero => simp only [Nat.zero_add, Nat.pow_one] at hk; exact absurd hk.symm h2
        | succ k =>
          refine ⟨k, ?_⟩
          rw [hk, Nat.div_div_eq_div_mul]
          congr 1
          rw [Nat.pow_succ 2 (k + 1), Nat.mul_comm]
    · next h =>
      obtain rfl : hi = 0 := by omega
      simpa using hk.symm

theorem emptyLoop_miss (cs : List (Node α L A)) (i : Nat) : ∀ (fuel hi : Nat), ¬ Looked hi i →
    parentIndexLoop cs 0 i fuel 0 hi = 0 := by
  intro fuel
  induction fuel with
  | zero => intro hi _; rfl
  | succ fuel ih =>
    intro hi hno
    simp only [parentIndexLoop, Nat.zero_add]
    split
    · next h =>
      have hno' : nodeIs cs (fun n => decide (n.pos < 0)) (hi / 2) = false := by
        simp only [nodeIs]
        cases cs[hi / 2]? <;> simp
      rw [hno']
      simp only [Bool.false_eq_true, if_false]
      split
      · next h2 => exact absurd ⟨0, by simpa using h2.symm⟩ hno
      · refine ih (hi / 2) ?_
        rintro ⟨k, hk⟩
        refine hno ⟨k + 1, ?_⟩
        rw [hk, Nat.div_div_eq_div_mul]
        congr 1
        rw [Nat.pow_succ 2 (k + 1), Nat.mul_comm]
    · rfl

theorem looked_zero (n : Nat) : Looked n 0 := by
  refine ⟨n, ?_⟩
  rw [Nat.div_eq_of_lt]
  have : n < 2 ^ n := Nat.lt_two_pow_self
  exact Nat.lt_of_lt_of_le this (Nat.pow_le_pow_right (by omega) (by omega))

theorem looked_le {n i : Nat} (h : Looked n i) : 2 * i ≤ n := by
  obtain ⟨k, rfl⟩ := h
  rw [Nat.pow_succ, ← Nat.div_div_eq_div_mul]
  have : n / 2 ^ k ≤ n := Nat.div_le_self _ _
  omega

theorem parentIndex_empty {cs : List (Node α L A)} {i : Nat} {l : L} (h : cs[i]? = some (.ctx l [])) :
    (Looked cs.length i → parentIndex cs i = i) ∧ (¬ Looked cs.length i → parentIndex cs i = 0) := by
  unfold parentIndex
  rw [h]
  simp only [Option.map_some, Option.getD_some, Node.pos, Node.firstTok, firstTokL, Option.map_none, Option.getD_none]
  exact ⟨emptyLoop_hit cs i _ _ (Nat.le_refl _), emptyLoop_miss cs i _ _⟩

/-! ### What has to remain -/

/-- The subtree without the node, at `rel` below it. -/
def pr (sub : Node α L A) (base rel : List Nat) : Option (Node α L A) := sub.prune (fun q => decide (q = base ++ rel)) base

mutual
theorem prune_other {target : List Nat} : (n : Node α L A) → (p : List Nat) → n.Full → (∀ r, p ++ r ≠ target) →
    n.prune (fun q => decide (q = target)) p = some n
  | .tok t, p, _, h => by
    have := h []
    rw [List.append_nil] at this
    simp [Node.prune, this]
  | .ctx l cs, p, hf, h => by
    have h0 := h []
    rw [List.append_nil] at h0
    simp only [Node.prune, h0, decide_false, Bool.false_eq_true, if_false]
    rw [pruneL_other cs p 0 hf.2 (fun j _ r => by have := h (j :: r); simpa using this)]
    cases cs with
    | nil => exact absurd rfl hf.1
    | cons c cs => rfl
theorem pruneL_other {target : List Nat} : (cs : List (Node α L A)) → (p : List Nat) → (k : Nat) → FullL cs →
    (∀ j, j < cs.length → ∀ r, p ++ (k + j) :: r ≠ target) → pruneL (fun q => decide (q = target)) p k cs = cs
  | [], _, _, _, _ => rfl
  | n :: cs, p, k, hf, h => by
    rw [pruneL, prune_other n (p ++ [k]) hf.1 (fun r => by have := h 0 (by simp) r; simpa using this),
      pruneL_other cs p (k + 1) hf.2 (fun j hj r => by
        have := h (j + 1) (by simp; omega) r
        rwa [show k + (j + 1) = k + 1 + j by omega] at this)]
    rfl
end

theorem FullL.append_iff {cs ds : List (Node α L A)} : FullL (cs ++ ds) ↔ FullL cs ∧ FullL ds := by
  induction cs with
  | nil => simp [FullL]
  | cons c cs ih => simp only [List.cons_append, FullL, ih, and_assoc]

theorem pruneL_append (T : List Nat → Bool) : (cs ds : List (Node α L A)) → (p : List Nat) → (k : Nat) →
    pruneL T p k (cs ++ ds) = pruneL T p k cs ++ pruneL T p (k + cs.length) ds
  | [], ds, p, k => by simp [pruneL]
  | c :: cs, ds, p, k => by
    simp only [List.cons_append, pruneL, pruneL_append T cs ds p (k + 1), List.append_assoc, List.length_cons]
    rw [show k + 1 + cs.length = k + (cs.length + 1) by omega]

theorem pruneL_one {cs : List (Node α L A)} {m : Node α L A} {i : Nat} (hm : cs[i]? = some m) (hf : FullL cs)
    (base rest : List Nat) :
    pruneL (fun q => decide (q = base ++ i :: rest)) base 0 cs =
      cs.take i ++ ((pr m (base ++ [i]) rest).toList ++ cs.drop (i + 1)) := by
  have hs := split_at hm
  have hlen : (cs.take i).length = i := by
    rw [List.length_take]; have := getElem?_lt hm; omega
  have hf' := hf
  rw [hs, FullL.append_iff] at hf'
  conv => lhs; rw [hs]
  rw [pruneL_append, pruneL_other (cs.take i) base 0 hf'.1 (fun j hj r he => by
    rw [hlen] at hj
    have := List.append_cancel_left he
    simp at this
    omega)]
  congr 1
  rw [hlen, pruneL, Nat.zero_add, pruneL_other _ base (i + 1) hf'.2.2 (fun j hj r he => by
    have := List.append_cancel_left he
    simp at this
    omega)]
  simp only [pr, List.append_assoc, List.singleton_append]

theorem pr_nil (sub : Node α L A) (base : List Nat) : pr sub base [] = none := by
  cases sub <;> simp [pr, Node.prune]

theorem pr_cons {l : L} {cs : List (Node α L A)} {m : Node α L A} {i : Nat} (hm : cs[i]? = some m) (hf : FullL cs)
    (base rest : List Nat) :
    pr (.ctx l cs) base (i :: rest) =
      if cs.take i ++ ((pr m (base ++ [i]) rest).toList ++ cs.drop (i + 1)) = [] then none
      else some (.ctx l (cs.take i ++ ((pr m (base ++ [i]) rest).toList ++ cs.drop (i + 1)))) := by
  have h0 : ¬ base = base ++ i :: rest := by
    intro h
    have := congrArg List.length h
    simp at this
  rw [pr, Node.prune, pruneL_one hm hf base rest]
  simp only [h0, decide_false, Bool.false_eq_true, if_false]
  generalize cs.take i ++ ((pr m (base ++ [i]) rest).toList ++ cs.drop (i + 1)) = xs
  cases xs <;> simp

/-- The first ancestor that remains. -/
def ret (sub : Node α L A) (base rel : List Nat) : Option (List Nat) :=
  (ancestorsOf rel).find? (fun a => ((sub.at a).bind (fun n => n.prune (fun q => decide (q = base ++ rel)) (base ++ a))).isSome)

theorem ancestorsOf_cons (i : Nat) (p : List Nat) : ancestorsOf (i :: p) = (ancestorsOf p).map (i :: ·) ++ [[]] := by
  simp only [ancestorsOf, List.length_cons, range_succ_rev, List.map_append, List.map_map, List.map_cons, List.map_nil,
    List.take_zero]
  congr 1

theorem ret_cons {sub m : Node α L A} {i : Nat} (hm : sub.kids[i]? = some m) (base rest : List Nat) :
    ret sub base (i :: rest) =
      match ret m (base ++ [i]) rest with
      | some a => some (i :: a)
      | none => if (pr sub base (i :: rest)).isSome then some [] else none := by
  have h1 : ret m (base ++ [i]) rest = (ancestorsOf rest).find? ((fun a => ((sub.at a).bind
      (fun n => n.prune (fun q => decide (q = base ++ i :: rest)) (base ++ a))).isSome) ∘ (i :: ·)) := by
    unfold ret
    congr 1
    funext a
    simp only [Function.comp, Node.at, hm, Option.bind_some, List.append_assoc, List.singleton_append]
  unfold ret at *
  rw [ancestorsOf_cons, List.find?_append, List.find?_map, ← h1]
  cases List.find? (fun a => ((m.at a).bind fun n => n.prune (fun q => decide (q = base ++ [i] ++ rest)) (base ++ [i] ++ a)).isSome) (ancestorsOf rest) with
  | some a => simp
  | none =>
    simp only [Option.map_none, Option.none_or, List.find?_cons, Node.at, Option.bind_some, List.append_nil, pr,
      List.find?_nil]
    split <;> simp_all

/-- The contexts that become empty have an index that is looked at. -/
def CondR : Node α L A → List Nat → List Nat → Prop
  | _, _, [] => True
  | sub, base, i :: rest => ∀ m, sub.kids[i]? = some m → CondR m (base ++ [i]) rest ∧
      (rest ≠ [] → pr m (base ++ [i]) rest = none → Looked sub.kids.length i)
termination_by structural _ _ r => r

theorem ret_none : (rel base : List Nat) → (sub : Node α L A) → sub.Full → (∃ n, sub.at rel = some n) →
    pr sub base rel = none → ret sub base rel = none
  | [], base, sub, _, _, _ => rfl
  | i :: rest, base, .tok t, hf, hn, h => by
    obtain ⟨n, hn⟩ := hn
    simp [Node.at, Node.kids] at hn
  | i :: rest, base, .ctx l cs, hf, hn, h => by
    obtain ⟨n, hn⟩ := hn
    obtain ⟨m, hm, hn'⟩ := at_cons hn
    rw [ret_cons hm, h]
    rw [pr_cons (show cs[i]? = some m from hm) hf.2] at h
    have h2 : pr m (base ++ [i]) rest = none := by
      split at h
      · next h3 =>
        simp only [List.append_eq_nil_iff, Option.toList_eq_nil_iff] at h3
        exact h3.2.1
      · cases h
    rw [ret_none rest (base ++ [i]) m (hf.2.get hm) ⟨n, hn'⟩ h2]
    rfl

theorem modify_split {cs : List (Node α L A)} {m : Node α L A} {i : Nat} (hm : cs[i]? = some m) (x : Node α L A) :
    cs.modify i (fun _ => x) = cs.take i ++ (x :: cs.drop (i + 1)) := by
  have hs := split_at hm
  have hlen : (cs.take i).length = i := by
    rw [List.length_take]; have := getElem?_lt hm; omega
  apply List.ext_getElem?
  intro k
  rcases Nat.lt_trichotomy k i with h | h | h
  · rw [List.getElem?_modify_ne _ _ (by omega), List.getElem?_append_left (by omega), List.getElem?_take_of_lt h]
  · subst h
    rw [List.getElem?_modify_eq, hm, List.getElem?_append_right (by omega), hlen]
    simp
  · rw [List.getElem?_modify_ne _ _ (by omega), List.getElem?_append_right (by omega), hlen]
    obtain ⟨j, rfl⟩ : ∃ j, k = i + 1 + j := ⟨k - i - 1, by omega⟩
    rw [show i + 1 + j - i = j + 1 by omega, List.getElem?_cons_succ, List.getElem?_drop]

theorem erase_split {cs : List (Node α L A)} {m : Node α L A} {i : Nat} (hm : cs[i]? = some m) (x : Node α L A) :
    (cs.modify i (fun _ => x)).eraseIdx i = cs.take i ++ cs.drop (i + 1) := by
  have hlen : (cs.take i).length = i := by
    rw [List.length_take]; have := getElem?_lt hm; omega
  rw [modify_split hm, List.eraseIdx_append_of_length_le (by omega), hlen, Nat.sub_self]
  rfl

theorem inner_good : (rel base : List Nat) → (sub : Node α L A) → sub.Full → Ordered sub.toks → rel ≠ [] →
    (∃ n, sub.at rel = some n) → CondR sub base rel →
    inner sub rel = ((pr sub base rel).getD (withKids sub []), ret sub base rel)
  | [], base, sub, _, _, h, _, _ => absurd rfl h
  | i :: rest, base, .tok t, hf, ho, _, hn, _ => by
    obtain ⟨n, hn⟩ := hn
    simp [Node.at, Node.kids] at hn
  | i :: rest, base, .ctx l cs, hf, ho, _, hn, hc => by
    obtain ⟨n, hn⟩ := hn
    obtain ⟨m, hm, hn'⟩ := at_cons hn
    have hm' : cs[i]? = some m := hm
    obtain ⟨hc1, hc2⟩ := hc m hm
    have hfm := hf.2.get hm
    rw [ret_cons hm, pr_cons hm' hf.2]
    simp only [inner, hm]
    by_cases hr : rest = []
    · subst hr
      have hmod : cs.modify i (fun _ => m) = cs := by
        rw [modify_split hm' m, ← split_at hm']
      have hk : (Node.ctx l cs).kids = cs := rfl
      simp only [inner, hk, hmod, parentIndex_eq hf.2 ho hm']
      have he := erase_split hm' m
      rw [hmod] at he
      rw [he, pr_nil]
      have hret : ret m (base ++ [i]) [] = none := rfl
      rw [hret]
      simp only [Option.toList_none, List.nil_append]
      by_cases h' : cs.take i ++ cs.drop (i + 1) = []
      · simp only [h', if_true]
        simp [withKids, stay]
      · simp only [h', if_false, stay_pos h']
        simp [withKids]
    · have ih := inner_good rest (base ++ [i]) m hfm (Ordered.get ho hm') hr ⟨n, hn'⟩ hc1
      rw [ih]
      have hk : (Node.ctx l cs).kids = cs := rfl
      simp only [hk]
      cases hp : pr m (base ++ [i]) rest with
      | some x =>
        simp only [Option.getD_some]
        have hret : ∃ a, ret m (base ++ [i]) rest = some a := by
          cases hrest : rest with
          | nil => exact absurd hrest hr
          | cons j rest' =>
            subst hrest
            obtain ⟨m2, hm2, _⟩ := at_cons hn'
            rw [ret_cons hm2, hp]
            cases ret m2 (base ++ [i] ++ [j]) rest' with
            | none => exact ⟨[], rfl⟩
            | some a => exact ⟨_, rfl⟩
        obtain ⟨a, ha⟩ := hret
        simp only [ha, Option.getD_some, modify_split hm' x]
        simp [withKids]
      | none =>
        rw [ret_none rest (base ++ [i]) m hfm ⟨n, hn'⟩ hp]
        simp only [Option.getD_none, Option.toList_none, List.nil_append]
        have hlook := hc2 hr hp
        rw [hk] at hlook
        have hmctx : ∃ l', withKids m [] = .ctx l' [] := by
          cases m with
          | tok t =>
            cases rest with
            | nil => exact absurd rfl hr
            | cons j r => simp [Node.at, Node.kids] at hn'
          | ctx l' ds => exact ⟨l', rfl⟩
        obtain ⟨l', hl'⟩ := hmctx
        rw [hl']
        have hget : (cs.modify i (fun _ => Node.ctx l' []))[i]? = some (.ctx l' []) := by
          rw [List.getElem?_modify_eq, hm']; rfl
        have hidx := (parentIndex_empty hget).1 (by rwa [List.length_modify])
        rw [hidx, erase_split hm']
        by_cases h' : cs.take i ++ cs.drop (i + 1) = []
        · simp only [h', if_true]
          simp [withKids, stay]
        · simp only [h', if_false, stay_pos h']
          simp [withKids]

theorem FullL.mem {cs : List (Node α L A)} (h : FullL cs) {x : Node α L A} (hx : x ∈ cs) : x.Full := by
  obtain ⟨j, hj⟩ := List.getElem?_of_mem hx
  exact h.get hj

theorem inner_bad : (rel base : List Nat) → (sub : Node α L A) → sub.Full → Ordered sub.toks →
    (∃ n, sub.at rel = some n) → ¬ CondR sub base rel →
    ∃ x a, inner sub rel = (x, some a) ∧ ¬ FullL x.kids
  | [], base, sub, _, _, _, h => absurd trivial h
  | i :: rest, base, .tok t, hf, ho, hn, _ => by
    obtain ⟨n, hn⟩ := hn
    simp [Node.at, Node.kids] at hn
  | i :: rest, base, .ctx l cs, hf, ho, hn, hc => by
    obtain ⟨n, hn⟩ := hn
    obtain ⟨m, hm, hn'⟩ := at_cons hn
    have hm' : cs[i]? = some m := hm
    have hfm := hf.2.get hm
    have hk : (Node.ctx l cs).kids = cs := rfl
    by_cases hcm : CondR m (base ++ [i]) rest
    · have hc' : ¬ (rest ≠ [] → pr m (base ++ [i]) rest = none → Looked cs.length i) := by
        intro h
        refine hc ?_
        intro m2 hm2
        rw [hm] at hm2
        cases hm2
        exact ⟨hcm, h⟩
      have hr : rest ≠ [] := fun h => hc' (fun h2 => absurd h h2)
      have hp : pr m (base ++ [i]) rest = none := by
        cases hp : pr m (base ++ [i]) rest with
        | none => rfl
        | some x => exact absurd (fun _ h => by rw [hp] at h; cases h) hc'
      have hlook : ¬ Looked cs.length i := fun h => hc' (fun _ _ => h)
      simp only [inner, hm]
      rw [inner_good rest (base ++ [i]) m hfm (Ordered.get ho hm') hr ⟨n, hn'⟩ hcm, hp,
        ret_none rest (base ++ [i]) m hfm ⟨n, hn'⟩ hp]
      simp only [Option.getD_none, hk]
      have hmctx : ∃ l', withKids m [] = .ctx l' [] := by
        cases m with
        | tok t =>
          cases rest with
          | nil => exact absurd rfl hr
          | cons j r => simp [Node.at, Node.kids] at hn'
        | ctx l' ds => exact ⟨l', rfl⟩
      obtain ⟨l', hl'⟩ := hmctx
      rw [hl']
      have hget : (cs.modify i (fun _ => Node.ctx l' []))[i]? = some (.ctx l' []) := by
        rw [List.getElem?_modify_eq, hm']; rfl
      have hidx := (parentIndex_empty hget).2 (by rwa [List.length_modify])
      rw [hidx]
      have hi : i ≠ 0 := fun h => hlook (h ▸ looked_zero _)
      have hmem : Node.ctx l' [] ∈ (cs.modify i (fun _ => Node.ctx l' [])).eraseIdx 0 := by
        obtain ⟨j, rfl⟩ : ∃ j, i = j + 1 := ⟨i - 1, by omega⟩
        refine List.mem_of_getElem? (i := j) ?_
        rw [List.getElem?_eraseIdx_of_ge (by omega)]
        exact hget
      refine ⟨_, [], by rw [stay_pos (List.ne_nil_of_mem hmem)], ?_⟩
      intro hfull
      exact (FullL.mem hfull hmem).1 rfl
    · obtain ⟨x, a, h1, h2⟩ := inner_bad rest (base ++ [i]) m hfm (Ordered.get ho hm') ⟨n, hn'⟩ hcm
      simp only [inner, hm, h1]
      refine ⟨_, _, rfl, ?_⟩
      intro hfull
      have hmem : x ∈ cs.modify i (fun _ => x) := by
        refine List.mem_of_getElem? (i := i) ?_
        rw [List.getElem?_modify_eq, hm']; rfl
      exact h2 (Full.kids (FullL.mem hfull hmem))

/-- The condition, in terms of paths. -/
theorem condR_iff : (rel base : List Nat) → (sub : Node α L A) → (∃ n, sub.at rel = some n) →
    (CondR sub base rel ↔ ∀ q i, q ++ [i] <+: rel → q ++ [i] ≠ rel →
      ((sub.at (q ++ [i])).bind (fun n => n.prune (fun s => decide (s = base ++ rel)) (base ++ (q ++ [i])))) = none →
      Looked (sub.kidsAt q).length i)
  | [], base, sub, _ => by
    simp only [CondR, true_iff]
    intro q i h
    have := h.length_le
    simp at this
  | i :: rest, base, sub, hn => by
    obtain ⟨n, hn⟩ := hn
    obtain ⟨m, hm, hn'⟩ := at_cons hn
    have ih := condR_iff rest (base ++ [i]) m ⟨n, hn'⟩
    constructor
    · intro hc q j hq hne hp
      obtain ⟨h1, h2⟩ := hc m hm
      cases q with
      | nil =>
        simp only [List.nil_append] at hq hne hp
        obtain rfl : j = i := by
          have := List.cons_prefix_cons.1 hq
          exact this.1
        have hk : sub.kidsAt [] = sub.kids := rfl
        rw [hk]
        refine h2 (by rintro rfl; exact hne rfl) ?_
        simpa [Node.at, hm, pr] using hp
      | cons k q =>
        obtain ⟨rfl, hq'⟩ := List.cons_prefix_cons.1 hq
        have hk : sub.kidsAt (k :: q) = m.kidsAt q := by simp [Node.kidsAt, Node.at, hm]
        rw [hk]
        refine ih.1 h1 q j hq' (by rintro h; exact hne (by rw [List.cons_append, h])) ?_
        simpa [Node.at, hm] using hp
    · intro h m2 hm2
      rw [hm] at hm2
      cases hm2
      refine ⟨ih.2 ?_, ?_⟩
      · intro q j hq hne hp
        have hk : sub.kidsAt (i :: q) = m.kidsAt q := by simp [Node.kidsAt, Node.at, hm]
        rw [← hk]
        refine h (i :: q) j (List.cons_prefix_cons.2 ⟨rfl, hq⟩) (by intro h2; exact hne (List.cons.inj h2).2) ?_
        simpa [Node.at, hm] using hp
      · intro hr hp
        refine h [] i (List.cons_prefix_cons.2 ⟨rfl, List.nil_prefix⟩) (by simpa using hr) ?_
        simpa [Node.at, hm, pr] using hp

end Parce.Nd
