import Verif.Lemmas.Dispatch
/-!
# C90: dispatchers
-/
namespace Parce.Disp
set_option linter.unusedSectionVars false
variable {Key Name Fn : Type} [DecidableEq Key] [DecidableEq Name]

/-- **C90.** A call with a key calls what has the name that the first class in the method resolution order registers for the key, as that name
    is looked up in the class of the instance: so a method that is defined again in a subclass is called, and a subclass can add keys
    and replace keys. If no class registers the key, the default is called. -/
theorem C90_call (name : Name) (mro : List (Class Key Name Fn)) (h : Defined name mro) (key : Key) :
    call (mro.map (Class.dict name)) name key = expected name mro key := by
  unfold expected
  have hm := fun x => merged_eq (Fn := Fn) name mro x
  unfold call
  cases ht : tableOf (mro.map (Class.dict name)) name with
  | none =>
    exfalso
    unfold tableOf at ht
    obtain ⟨⟨k, n⟩, he, hf⟩ := (mapM_none _).1 ht
    rw [getattr_eq] at hf
    refine h k n ?_ hf
    rw [← (hm k).1]
    exact get_of_mem (hm k).2 he
  | some t =>
    unfold tableOf at ht
    have h1 := mapM_get _ ht key
    rw [(hm key).1] at h1
    dsimp only
    rw [h1]
    cases hn : nameFor mro key with
    | none => rfl
    | some n =>
      simp only [Option.bind_some, getattr_eq]
      cases hl : lookup name mro n with
      | none => exact absurd hl (h key n hn)
      | some f => rfl

/-- **C90.** If a name that is registered has no attribute, a call with any key raises an AttributeError. -/
theorem C90_error (name : Name) (mro : List (Class Key Name Fn)) {k : Key} {n : Name} (hn : nameFor mro k = some n)
    (hl : lookup name mro n = none) (key : Key) : call (mro.map (Class.dict name)) name key = .error := by
  have hm := merged_eq (Fn := Fn) name mro k
  have : tableOf (mro.map (Class.dict name)) name = none := by
    unfold tableOf
    refine (mapM_none _).2 ⟨(k, n), ?_, ?_⟩
    · exact mem_of_get (by rw [hm.1]; exact hn)
    · rw [getattr_eq]; exact hl
  unfold call
  rw [this]

/-- A class registers `one` for 1 and 2, and `two` for 2; a subclass registers `three` for 3, and defines `one` again. -/
def exampleMro : List (Class Nat String String) :=
  [⟨some [([3], "three")], fun n => if n = "one" then some (.func "B.one") else if n = "three" then some (.func "B.three") else none⟩,
   ⟨some [([1, 2], "one"), ([2], "two")], fun n => if n = "one" then some (.func "A.one") else if n = "two" then some (.func "A.two") else none⟩]

example : Defined "dispatch" exampleMro ∧ nameFor exampleMro 1 = some "one" ∧ nameFor exampleMro 2 = some "two" ∧ nameFor exampleMro 3 = some "three" ∧
    nameFor exampleMro 4 = none ∧ (lookup "dispatch" exampleMro "one").isSome = true := by
  refine ⟨?_, by decide, by decide, by decide, by decide, by decide⟩
  intro key n hn
  have hk : n = "one" ∨ n = "two" ∨ n = "three" := by
    by_cases h3 : key = 3
    · subst h3
      have : nameFor exampleMro 3 = some "three" := by decide
      rw [this] at hn; cases hn; simp
    · by_cases h2 : key = 2
      · subst h2
        have : nameFor exampleMro 2 = some "two" := by decide
        rw [this] at hn; cases hn; simp
      · by_cases h1 : key = 1
        · subst h1
          have : nameFor exampleMro 1 = some "one" := by decide
          rw [this] at hn; cases hn; simp
        · simp [nameFor, exampleMro, registered, h1, h2, h3] at hn
  rcases hk with rfl | rfl | rfl <;> simp [lookup, exampleMro, Class.dict]

/-- The name `gone` has no attribute any more. -/
example : ∃ mro : List (Class Nat String String), nameFor mro 1 = some "gone" ∧ lookup "dispatch" mro "gone" = none :=
  ⟨[⟨some [([1], "gone")], fun _ => none⟩], by decide, rfl⟩

end Parce.Disp
