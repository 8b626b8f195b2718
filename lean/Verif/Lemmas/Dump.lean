import Verif.Spec.Dump

namespace Parce
namespace Dump

variable {α L A : Type}

theorem at_append (n : Node α L A) (p q : List Nat) :
    n.at (p ++ q) = (n.at p).bind (fun m => m.at q) := by
  induction p generalizing n with
  | nil => simp [Node.at]
  | cons i p ih =>
    simp only [List.cons_append, Node.at]
    cases n.kids[i]? with
    | none => rfl
    | some m => simpa using ih m

theorem pre_zero (d : Style) (root : Node α L A) (f : Bool) (p : List Nat) :
    pre d root 0 f p = [] := rfl

theorem pre_succ (d : Style) (root : Node α L A) (k : Nat) (f : Bool) (p : List Nat) (i : Nat) :
    pre d root (k + 1) f (p ++ [i]) =
      pre d root k false p ++ d.pick f (isLast root (p ++ [i])) := by
  simp [pre, parts]

theorem hang_map (h b c : List Char) (ls : List (List Char)) :
    (hang h b ls).map (c ++ ·) = hang (c ++ h) (c ++ b) ls := by
  cases ls with
  | nil => rfl
  | cons x xs => simp [hang, Function.comp_def]

theorem hang_nil (ls : List (List Char)) : hang [] [] ls = ls := by
  cases ls <;> simp [hang]

theorem isLast_child (root : Node α L A) (p : List Nat) (l : L) (cs : List (Node α L A)) (i : Nat)
    (h : root.at p = some (.ctx l cs)) :
    isLast root (p ++ [i]) = decide (cs.length = i + 1) := by
  have hd : (p ++ [i]).dropLast = p := by simp
  have hg : (p ++ [i]).getLast? = some i := by simp
  unfold isLast
  rw [hd, hg, h]
  rfl

mutual
theorem dump_eq (d : Style) (rp : Node α L A → List Char) (root : Node α L A)
    (p : List Nat) (k : Nat) (n : Node α L A) (h : root.at p = some n) :
    dump d rp root p k n = hang (pre d root k true p) (pre d root k false p) (draw d rp n) := by
  match n, h with
  | .tok t, _ => simp [dump, draw, hang]
  | .ctx l cs, h =>
    simp only [dump, draw, hang]
    have h0 := dumps_eq d rp root p k l [] cs (by simpa using h)
    simp only [List.length_nil] at h0
    rw [h0]
theorem dumps_eq (d : Style) (rp : Node α L A → List Char) (root : Node α L A)
    (p : List Nat) (k : Nat) (l : L) (as cs : List (Node α L A))
    (h : root.at p = some (.ctx l (as ++ cs))) :
    dumps d rp root p as.length (k + 1) cs =
      (drawAll d rp cs).map (pre d root k false p ++ ·) := by
  match cs, h with
  | [], _ => simp [dumps, drawAll]
  | n :: ns, h =>
    have hn : root.at (p ++ [as.length]) = some n := by
      rw [at_append, h]; simp [Node.at, Node.kids]
    have h1 := dump_eq d rp root (p ++ [as.length]) (k + 1) n hn
    have h2 := dumps_eq d rp root p k l (as ++ [n]) ns (by simpa using h)
    have hl := isLast_child root p l _ as.length h
    simp only [List.length_append, List.length_singleton] at h2
    simp only [dumps, drawAll, List.map_append]
    rw [h1, h2, pre_succ, pre_succ, hl]
    congr 1
    cases ns with
    | nil => simp [hang_map, Style.pick]
    | cons m ms => simp [hang_map, Style.pick]
end

theorem hang_length (h b : List Char) (ls : List (List Char)) :
    (hang h b ls).length = ls.length := by
  cases ls <;> simp [hang]

mutual
theorem draw_length (d : Style) (rp : Node α L A → List Char) (n : Node α L A) :
    (draw d rp n).length = count n := by
  match n with
  | .tok t => simp [draw, count]
  | .ctx l cs => simp [draw, count, drawAll_length d rp cs, Nat.add_comm]
theorem drawAll_length (d : Style) (rp : Node α L A → List Char) (cs : List (Node α L A)) :
    (drawAll d rp cs).length = counts cs := by
  match cs with
  | [] => simp [drawAll, counts]
  | n :: ns =>
    have h1 := draw_length d rp n
    have h2 := drawAll_length d rp ns
    cases ns <;> simp_all [drawAll, counts, hang_length]
end

end Dump
end Parce
