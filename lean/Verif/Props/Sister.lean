import Verif.Lemmas.Sister
/-!
# C126: the classes that belong to a language
-/
namespace Parce.Sis
variable {C M : Type} [DecidableEq C]

/-- **C126.** Without the parents, the sister of the language is found, and None if it has none. -/
theorem C126_own (k : Classes C M) (lang : C) (template : List Nat → List Nat) (base : C) (hm : k.loaded (k.modOf lang) = true) (s : C) :
    (sister k lang template base false = some (some s) ↔ IsSister k template base lang s) ∧
    (sister k lang template base false = some none ↔ ∀ x, ¬ IsSister k template base lang x) := by
  have hm' : ∀ c ∈ [lang], k.loaded (k.modOf c) = true := by
    intro c hc
    obtain rfl := List.mem_singleton.1 hc
    exact hm
  constructor
  · show sisterLoop k template base [lang] = _ ↔ _
    rw [loop_some _ hm']
    constructor
    · rintro ⟨l1, d, l2, h1, h2, _⟩
      cases l1 with
      | nil => obtain ⟨rfl, _⟩ := List.cons.inj h1; exact h2
      | cons c l1 => have := congrArg List.length h1; simp at this
    · intro h
      exact ⟨[], lang, [], rfl, h, by simp⟩
  · show sisterLoop k template base [lang] = _ ↔ _
    rw [loop_none _ hm']
    simp

/-- **C126**, the part that holds: with the parents, the sister of the first class is found that has one, if that class is a language. Missing: a
    parent that is not a language, see `C126_mixin_violated`. -/
theorem C126_parents_partial (k : Classes C M) (object language lang : C) (hk : k.Ok object) (hl : language ≠ object) (template : List Nat → List Nat) (base : C)
    (hm : ∀ c ∈ k.mro lang, k.loaded (k.modOf c) = true) (l1 l2 : List C) (d s : C) (h : k.mro lang = l1 ++ d :: l2) (hd : IsLanguage k language d)
    (h1 : ∀ c ∈ l1, ∀ x, ¬ IsSister k template base c x) (hs : IsSister k template base d s) :
    sister k lang template base true = some (some s) := by
  obtain ⟨l3, h3⟩ := tried hk hl h hd
  show sisterLoop k template base ((k.mro lang).take ((k.mro lang).length - 2)) = _
  rw [loop_some _ (fun c hc => hm c (List.mem_of_mem_take hc))]
  exact ⟨l1, d, l3, h3, hs, h1⟩

/-- **C126.** What is found is the sister of the first class with a sister, of the language or one of its parents. -/
theorem C126_sound (k : Classes C M) (lang : C) (template : List Nat → List Nat) (base : C)
    (hm : ∀ c ∈ k.mro lang, k.loaded (k.modOf c) = true) (s : C) (h : sister k lang template base true = some (some s)) :
    ∃ l1 d l2, k.mro lang = l1 ++ d :: l2 ∧ IsSister k template base d s ∧ ∀ c ∈ l1, ∀ x, ¬ IsSister k template base c x := by
  have h : sisterLoop k template base ((k.mro lang).take ((k.mro lang).length - 2)) = _ := h
  rw [loop_some _ (fun c hc => hm c (List.mem_of_mem_take hc))] at h
  obtain ⟨l1, d, l2, h1, h2, h3⟩ := h
  refine ⟨l1, d, l2 ++ (k.mro lang).drop ((k.mro lang).length - 2), ?_, h2, h3⟩
  rw [← List.cons_append, ← List.append_assoc, ← h1, List.take_append_drop]

/-- **C126.** None is only returned when neither the language nor one of its parents that are languages has a sister. -/
theorem C126_none (k : Classes C M) (object language lang : C) (hk : k.Ok object) (hl : language ≠ object) (template : List Nat → List Nat) (base : C)
    (hm : ∀ c ∈ k.mro lang, k.loaded (k.modOf c) = true) (h : sister k lang template base true = some none) :
    ∀ d ∈ k.mro lang, IsLanguage k language d → ∀ s, ¬ IsSister k template base d s := by
  intro d hd hdl
  obtain ⟨l1, l2, h1⟩ := List.append_of_mem hd
  obtain ⟨l3, h3⟩ := tried hk hl h1 hdl
  have h : sisterLoop k template base ((k.mro lang).take ((k.mro lang).length - 2)) = _ := h
  rw [loop_none _ (fun c hc => hm c (List.mem_of_mem_take hc)), h3] at h
  exact h d (by simp)

/-- **C126.** The result is always of the kind that is asked for, so a handler, an indenter and a transform are of their class. -/
theorem C126_kind (k : Classes C M) (lang : C) (template : List Nat → List Nat) (base : C) (b : Bool)
    (hm : ∀ c ∈ lang :: k.mro lang, k.loaded (k.modOf c) = true) (s : C) (h : sister k lang template base b = some (some s)) : base ∈ k.mro s := by
  cases b with
  | false => exact ((C126_own k lang template base (hm lang (by simp)) s).1.1 h).2
  | true =>
    obtain ⟨_, _, _, _, h2, _⟩ := C126_sound k lang template base (fun c hc => hm c (List.mem_cons_of_mem _ hc)) s h
    exact h2.2

/-- **C126.** `IO.get` gives the class it is called on without a lexicon, or when no class is found; and the class found otherwise. -/
theorem C126_io (k : Classes C M) (object language io cls lang : C) (hk : k.Ok object) (hl : language ≠ object)
    (hm : ∀ c ∈ k.mro lang, k.loaded (k.modOf c) = true) :
    ioGet k io cls none = some cls ∧
    ((∀ c ∈ k.mro lang, ∀ x, ¬ IsSister k (fun n => n ++ "IO".toList.map Char.toNat) io c x) → ioGet k io cls (some lang) = some cls) ∧
    ∀ l1 d l2 s, k.mro lang = l1 ++ d :: l2 → IsLanguage k language d → (∀ c ∈ l1, ∀ x, ¬ IsSister k (fun n => n ++ "IO".toList.map Char.toNat) io c x) →
      IsSister k (fun n => n ++ "IO".toList.map Char.toNat) io d s → ioGet k io cls (some lang) = some s := by
  have e : (fun n => n ++ "IO".toList.map Char.toNat) = suffix [73, 79] := by
    funext n
    rfl
  rw [e]
  refine ⟨rfl, ?_, ?_⟩
  · intro h
    have : sister k lang (suffix [73, 79]) io true = some none := by
      show sisterLoop k _ io ((k.mro lang).take ((k.mro lang).length - 2)) = _
      rw [loop_none _ (fun c hc => hm c (List.mem_of_mem_take hc))]
      exact fun c hc => h c (List.mem_of_mem_take hc)
    simp [ioGet, this]
  · intro l1 d l2 s h hd h1 hs
    simp [ioGet, C126_parents_partial k object language lang hk hl _ io hm l1 l2 d s h hd h1 hs]

/-- **C126.** `find_indent` looks for `…Indent` with the parents, `find_transform` for `…Transform` without them. -/
theorem C126_indent_transform (k : Classes C M) (object language base lang : C) (hk : k.Ok object) (hl : language ≠ object)
    (hm : ∀ c ∈ k.mro lang, k.loaded (k.modOf c) = true) :
    (∀ l1 d l2 s, k.mro lang = l1 ++ d :: l2 → IsLanguage k language d →
      (∀ c ∈ l1, ∀ x, ¬ IsSister k (fun n => n ++ "Indent".toList.map Char.toNat) base c x) →
      IsSister k (fun n => n ++ "Indent".toList.map Char.toNat) base d s → findIndent k base lang = some (some s)) ∧
    ∀ s, findTransform k base lang = some (some s) ↔ IsSister k (fun n => n ++ "Transform".toList.map Char.toNat) base lang s := by
  refine ⟨?_, ?_⟩
  · intro l1 d l2 s h hd h1 hs
    exact C126_parents_partial k object language lang hk hl _ base hm l1 l2 d s h hd h1 hs
  · intro s
    have hml : k.loaded (k.modOf lang) = true := by
      have := hk.first lang
      exact hm lang (List.mem_of_mem_head? this)
    exact (C126_own k lang (suffix [84, 114, 97, 110, 115, 102, 111, 114, 109]) base hml s).1

/-! ### Some classes -/

/-- `object`, `Language`, the languages `Xml` and `Svg(Xml)`, a class `Mixin`, the languages `A(Mixin, Xml)` and `B(Xml, Mixin)`, the class `IO`, and its
    subclasses `XmlIO` and `MixinIO`. -/
inductive Cl where
  | object | language | xml | svg | mixin | a | b | io | xmlIO | mixinIO
deriving DecidableEq

def Cl.mro : Cl → List Cl
  | .object => [.object]
  | .language => [.language, .object]
  | .xml => [.xml, .language, .object]
  | .svg => [.svg, .xml, .language, .object]
  | .mixin => [.mixin, .object]
  | .a => [.a, .mixin, .xml, .language, .object]
  | .b => [.b, .xml, .language, .mixin, .object]
  | .io => [.io, .object]
  | .xmlIO => [.xmlIO, .io, .object]
  | .mixinIO => [.mixinIO, .io, .object]

def nm (s : String) : List Nat := s.toList.map Char.toNat

/-- All in one module; with or without `XmlIO`. -/
def prog (withXml : Bool) : Classes Cl Unit where
  mro := Cl.mro
  name
    | .object => nm "object" | .language => nm "Language" | .xml => nm "Xml" | .svg => nm "Svg" | .mixin => nm "Mixin" | .a => nm "A" | .b => nm "B"
    | .io => nm "IO" | .xmlIO => nm "XmlIO" | .mixinIO => nm "MixinIO"
  modOf _ := ()
  loaded _ := true
  attr _ n := if n = nm "XmlIO" ∧ withXml = true then some .xmlIO else if n = nm "MixinIO" then some .mixinIO else none

theorem prog_ok (b : Bool) : (prog b).Ok .object where
  first c := by cases c <;> rfl
  last c := by cases c <;> rfl
  once c := by show (Cl.mro c).Nodup; cases c <;> decide
  order c d h := by
    change (Cl.mro d).Sublist (Cl.mro c)
    change d ∈ Cl.mro c at h
    cases c <;> cases d <;> revert h <;> decide

example : (prog true).Ok .object ∧ (prog true).mro .svg = [.svg] ++ .xml :: [.language, .object] ∧ IsLanguage (prog true) .language .xml ∧
    (∀ c ∈ [Cl.svg], ∀ x, ¬ IsSister (prog true) (suffix (nm "IO")) .io c x) ∧ IsSister (prog true) (suffix (nm "IO")) .io .xml .xmlIO ∧
    sister (prog true) .svg (suffix (nm "IO")) .io true = some (some .xmlIO) ∧ sister (prog true) .svg (suffix (nm "IO")) .io false = some none ∧
    ioGet (prog true) .io .io (some .svg) = some .xmlIO ∧ ioGet (prog false) .io .io (some .svg) = some .io ∧
    sister (prog true) .a (suffix (nm "IO")) .io true = some (some .mixinIO) := by
  refine ⟨prog_ok true, rfl, by unfold IsLanguage; decide, ?_, by unfold IsSister; decide, by decide, by decide, by decide, by decide, by decide⟩
  intro c hc x hx
  obtain rfl := List.mem_singleton.1 hc
  have := hx.1
  revert this
  cases x <;> decide

/-- **C126** is violated: a parent that is not a language is tried when it comes before the language, `A(Mixin, Xml)`, but not when it comes last,
    `B(Xml, Mixin)`; instead of it `Language` is. -/
theorem C126_mixin_violated : (prog false).Ok .object ∧ Cl.mixin ∈ (prog false).mro .b ∧ IsSister (prog false) (suffix (nm "IO")) .io .mixin .mixinIO ∧
    sister (prog false) .a (suffix (nm "IO")) .io true = some (some .mixinIO) ∧ sister (prog false) .b (suffix (nm "IO")) .io true = some none :=
  ⟨prog_ok false, by decide, by unfold IsSister; decide, by decide, by decide⟩

end Parce.Sis
