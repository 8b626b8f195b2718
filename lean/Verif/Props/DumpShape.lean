import Verif.Props.Dump

/-!
# C133, continued: the picture determines the tree

For a style whose four texts have the same length and whose arms differ from
the bar and the blank (all styles of `parce/tree.py:58-65` are such), two trees
with the same picture are the same but for what `repr` does not show.
-/

namespace Parce
namespace Dump

variable {α L A : Type}

/-- A tree of which only the texts of the nodes are known. -/
inductive Shape where
  | node (label : List Char) (kids : List Shape)

mutual
/-- A tree, with only the texts of its nodes. -/
def shape (rp : Node α L A → List Char) : Node α L A → Shape
  | .tok t => .node (rp (.tok t)) []
  | .ctx l cs => .node (rp (.ctx l cs)) (shapes rp cs)
/-- The same for a list of trees. -/
def shapes (rp : Node α L A → List Char) : List (Node α L A) → List Shape
  | [] => []
  | n :: ns => shape rp n :: shapes rp ns
end

/-- The four texts have one length, and arms can be told from the others. -/
structure Style.Clear (d : Style) : Prop where
  blank : d.blank.length = d.bar.length
  arm : d.arm.length = d.bar.length
  lastArm : d.lastArm.length = d.bar.length
  arms : ∀ a ∈ [d.arm, d.lastArm], ∀ b ∈ [d.bar, d.blank], a ≠ b

/-- No line, or a first line that begins with an arm. -/
def ArmFirst (d : Style) (ls : List (List Char)) : Prop :=
  ls = [] ∨ ∃ a ∈ [d.arm, d.lastArm], ∃ x xs, ls = (a ++ x) :: xs

theorem draw_cons (d : Style) (rp : Node α L A → List Char) (n : Node α L A) :
    ∃ x xs, draw d rp n = x :: xs := by
  cases n <;> simp [draw]

theorem drawAll_cons (d : Style) (rp : Node α L A → List Char) (n : Node α L A)
    (ns : List (Node α L A)) :
    ∃ a ∈ [d.arm, d.lastArm], ∃ b ∈ [d.bar, d.blank],
      drawAll d rp (n :: ns) = hang a b (draw d rp n) ++ drawAll d rp ns := by
  cases ns with
  | nil => exact ⟨d.lastArm, by simp, d.blank, by simp, by simp [drawAll]⟩
  | cons m ms => exact ⟨d.arm, by simp, d.bar, by simp, by simp [drawAll]⟩

theorem drawAll_armFirst (d : Style) (rp : Node α L A → List Char) (ns : List (Node α L A)) :
    ArmFirst d (drawAll d rp ns) := by
  cases ns with
  | nil => left; simp [drawAll]
  | cons n ns =>
    right
    obtain ⟨a, ha, b, _, h⟩ := drawAll_cons d rp n ns
    obtain ⟨x, xs, hx⟩ := draw_cons d rp n
    exact ⟨a, ha, x, _, by rw [h, hx]; rfl⟩

theorem arm_length {d : Style} (hd : d.Clear) {a : List Char} (ha : a ∈ [d.arm, d.lastArm]) :
    a.length = d.bar.length := by
  simp only [List.mem_cons, List.not_mem_nil, or_false] at ha
  rcases ha with rfl | rfl
  · exact hd.arm
  · exact hd.lastArm

theorem bar_length {d : Style} (hd : d.Clear) {b : List Char} (hb : b ∈ [d.bar, d.blank]) :
    b.length = d.bar.length := by
  simp only [List.mem_cons, List.not_mem_nil, or_false] at hb
  rcases hb with rfl | rfl
  · rfl
  · exact hd.blank

theorem armFirst_ne {d : Style} (hd : d.Clear) {b : List Char} (hb : b ∈ [d.bar, d.blank])
    (x : List Char) (xs : List (List Char)) : ¬ ArmFirst d ((b ++ x) :: xs) := by
  rintro (h | ⟨a, ha, y, ys, h⟩)
  · cases h
  · have h1 : b ++ x = a ++ y := by injection h
    have h2 := List.append_inj_left h1 (by rw [bar_length hd hb, arm_length hd ha])
    exact hd.arms a ha b hb h2.symm

theorem tails_inj {d : Style} (hd : d.Clear) {b c : List Char}
    (hb : b ∈ [d.bar, d.blank]) (hc : c ∈ [d.bar, d.blank]) :
    ∀ (xs ys : List (List Char)) (X Y : List (List Char)), ArmFirst d X → ArmFirst d Y →
      xs.map (b ++ ·) ++ X = ys.map (c ++ ·) ++ Y → xs = ys ∧ X = Y
  | [], [], X, Y, _, _, h => ⟨rfl, by simpa using h⟩
  | [], y :: ys, X, Y, hX, _, h => by
    exfalso
    have h' : X = (c ++ y) :: (ys.map (c ++ ·) ++ Y) := by simpa using h
    rw [h'] at hX
    exact armFirst_ne hd hc _ _ hX
  | x :: xs, [], X, Y, _, hY, h => by
    exfalso
    have h' : Y = (b ++ x) :: (xs.map (b ++ ·) ++ X) := by simpa using h.symm
    rw [h'] at hY
    exact armFirst_ne hd hb _ _ hY
  | x :: xs, y :: ys, X, Y, hX, hY, h => by
    simp only [List.map_cons, List.cons_append, List.cons.injEq] at h
    have h1 := List.append_inj_right h.1 (by rw [bar_length hd hb, bar_length hd hc])
    have h2 := tails_inj hd hb hc xs ys X Y hX hY h.2
    exact ⟨by rw [h1, h2.1], h2.2⟩

theorem hang_inj {d : Style} (hd : d.Clear) {a a' b b' : List Char}
    (ha : a ∈ [d.arm, d.lastArm]) (ha' : a' ∈ [d.arm, d.lastArm])
    (hb : b ∈ [d.bar, d.blank]) (hb' : b' ∈ [d.bar, d.blank])
    (x y : List Char) (xs ys X Y : List (List Char)) (hX : ArmFirst d X) (hY : ArmFirst d Y)
    (h : hang a b (x :: xs) ++ X = hang a' b' (y :: ys) ++ Y) :
    x :: xs = y :: ys ∧ X = Y := by
  simp only [hang, List.cons_append, List.cons.injEq] at h
  have h1 := List.append_inj_right h.1 (by rw [arm_length hd ha, arm_length hd ha'])
  have h2 := tails_inj hd hb hb' xs ys X Y hX hY h.2
  exact ⟨by rw [h1, h2.1], h2.2⟩

theorem draw_kids (d : Style) (rp : Node α L A → List Char) (n : Node α L A) :
    draw d rp n = rp n :: drawAll d rp n.kids := by
  cases n <;> simp [draw, Node.kids, drawAll]

theorem shape_kids (rp : Node α L A → List Char) (n : Node α L A) :
    shape rp n = .node (rp n) (shapes rp n.kids) := by
  cases n <;> simp [shape, Node.kids, shapes]

theorem drawAll_nil (d : Style) (rp : Node α L A → List Char) (ns : List (Node α L A))
    (h : drawAll d rp ns = []) : ns = [] := by
  cases ns with
  | nil => rfl
  | cons m ms =>
    obtain ⟨a, _, b, _, e⟩ := drawAll_cons d rp m ms
    obtain ⟨x, xs, hx⟩ := draw_cons d rp m
    rw [e, hx] at h
    simp [hang] at h

mutual
theorem draw_inj {d : Style} (hd : d.Clear) (rp : Node α L A → List Char) (n m : Node α L A)
    (h : draw d rp n = draw d rp m) : shape rp n = shape rp m := by
  rw [draw_kids d rp m] at h
  rw [shape_kids rp m]
  match n, h with
  | .tok t, h =>
    simp only [draw, List.cons.injEq] at h
    rw [drawAll_nil d rp m.kids h.2.symm]
    simp only [shape, h.1, shapes]
  | .ctx l cs, h =>
    simp only [draw, List.cons.injEq] at h
    have h2 := drawAll_inj hd rp cs m.kids h.2
    simp only [shape, h.1, h2]
theorem drawAll_inj {d : Style} (hd : d.Clear) (rp : Node α L A → List Char)
    (cs ds : List (Node α L A)) (h : drawAll d rp cs = drawAll d rp ds) :
    shapes rp cs = shapes rp ds := by
  match cs, ds, h with
  | [], [], _ => rfl
  | [], m :: ms, h =>
    exfalso
    obtain ⟨a, _, b, _, e⟩ := drawAll_cons d rp m ms
    obtain ⟨x, xs, hx⟩ := draw_cons d rp m
    rw [e, hx] at h
    simp [drawAll, hang] at h
  | n :: ns, [], h =>
    exfalso
    obtain ⟨a, _, b, _, e⟩ := drawAll_cons d rp n ns
    obtain ⟨x, xs, hx⟩ := draw_cons d rp n
    rw [e, hx] at h
    simp [drawAll, hang] at h
  | n :: ns, m :: ms, h =>
    obtain ⟨a, ha, b, hb, e⟩ := drawAll_cons d rp n ns
    obtain ⟨a', ha', b', hb', e'⟩ := drawAll_cons d rp m ms
    obtain ⟨x, xs, hx⟩ := draw_cons d rp n
    obtain ⟨y, ys, hy⟩ := draw_cons d rp m
    rw [e, e', hx, hy] at h
    have h2 := hang_inj hd ha ha' hb hb' x y xs ys _ _ (drawAll_armFirst d rp ns)
      (drawAll_armFirst d rp ms) h
    have h3 := draw_inj hd rp n m (by rw [hx, hy, h2.1])
    have h4 := drawAll_inj hd rp ns ms h2.2
    simp only [shapes, h3, h4]
end

/-- **C133.**  From what is printed for a node, the tree can be read: the same
lines are only printed for nodes with the same children, in the same order and
nesting, with the same texts.  The nodes may be in different trees. -/
theorem C133_shape (d : Style) (hd : d.Clear) (rp : Node α L A → List Char)
    (r s n m : Node α L A) (p q : List Nat) (hn : r.at p = some n) (hm : s.at q = some m)
    (h : dump d rp r p 0 n = dump d rp s q 0 m) : shape rp n = shape rp m := by
  rw [C133_picture d rp r n p hn, C133_picture d rp s m q hm] at h
  exact draw_inj hd rp n m h

/-- **C133.**  All six styles of parce are such. -/
theorem C133_styles : ∀ d ∈ [ascii, round, square, double, thick, flat], d.Clear := by
  intro d hd
  simp only [List.mem_cons, List.not_mem_nil, or_false] at hd
  rcases hd with rfl | rfl | rfl | rfl | rfl | rfl <;>
    exact ⟨by decide +kernel, by decide +kernel, by decide +kernel, by decide +kernel⟩

example : dump ascii sampleRepr sample [0] 0 (.ctx 1 [.ctx 2 [], .ctx 3 []]) ≠
    dump ascii sampleRepr sample [] 0 (.ctx 1 [.ctx 2 [.ctx 3 []]]) := by
  decide +kernel

end Dump
end Parce
