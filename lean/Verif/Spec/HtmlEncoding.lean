import Verif.Spec.Html
import Verif.Spec.FindEncoding
import Verif.Model.Tree
/-!
# The encoding that an HTML text declares

https://html.spec.whatwg.org/multipage/semantics.html#character-encoding-declaration: a `meta` element with the attribute `charset`, or with
`http-equiv="content-type"` and an attribute `content` that has `charset=`.
-/
namespace Parce.Html
open Parce.Json (Uni str)
open Parce.Xml (Ws)

/-- An attribute: its name and its value. -/
structure MAttr where
  name : List Nat
  value : List Nat

/-- The nodes of a context are the tokens of these attributes, with double quotes and values that are not empty; and then the end of the tag. -/
inductive Reads : List (Node Nat HL HA) → List MAttr → Prop
  | stop (d : TokN Nat HA) : d.act = .x .delimiter → Reads [.tok d] []
  | attr {n e q v z : TokN Nat HA} {ns : List (Node Nat HL HA)} {as : List MAttr} : n.act = .x .attribute → e.act = .x .operator → q.act = .x .dqStart →
      v.text ≠ [] → Reads ns as → Reads (.tok n :: .tok e :: .tok q :: .ctx (.xml .dqstring) [.tok v, .tok z] :: ns) (⟨n.text, v.text⟩ :: as)

/-- The elements with the name `meta` in the nodes, in the order of the text, have these attributes. -/
inductive MetaNodes : List (Node Nat HL HA) → List (List MAttr) → Prop
  | nil : MetaNodes [] []
  /-- `meta` and its attributes -/
  | found {t : TokN Nat HA} {cs ns : List (Node Nat HL HA)} {as : List MAttr} {ms : List (List MAttr)} : t.act = .x .tagName → t.text = str "meta" →
      Reads cs as → MetaNodes ns ms → MetaNodes (.tok t :: .ctx (.attrs .none) cs :: ns) (as :: ms)
  /-- a token before a token, also that of a `meta` without attributes -/
  | bare {t t' : TokN Nat HA} {ns : List (Node Nat HL HA)} {ms : List (List MAttr)} : MetaNodes (.tok t' :: ns) ms → MetaNodes (.tok t :: .tok t' :: ns) ms
  /-- another token -/
  | tok {t : TokN Nat HA} {ns : List (Node Nat HL HA)} {ms : List (List MAttr)} : ¬ (t.act = .x .tagName ∧ t.text = str "meta") →
      MetaNodes ns ms → MetaNodes (.tok t :: ns) ms
  /-- a context -/
  | ctx {l : HL} {cs ns : List (Node Nat HL HA)} {ms ms' : List (List MAttr)} : MetaNodes cs ms → MetaNodes ns ms' → MetaNodes (.ctx l cs :: ns) (ms ++ ms')

/-- In the value is `charset=w`, with white space around the `=`; and `charset` is not in the value before. -/
def ContentTells (u : Uni) (v w : List Nat) : Prop :=
  ∃ pre key a b post, v = pre ++ (key ++ (a ++ (str "=" ++ (b ++ (w ++ post))))) ∧ lower key = str "charset" ∧ Ws a ∧ Ws b ∧ FEnc.IsName u w ∧
    (∀ c, post.head? = some c → ¬ FEnc.NameChar u c) ∧ (∀ c, pre.getLast? = some c → u.word c = false) ∧
    (∀ i < pre.length, ¬ str "charset" <+: lower (v.drop i)) ∧ ∀ c ∈ v, c ≠ 0x17F

/-- The value has no `charset`. -/
def ContentSilent (v : List Nat) : Prop := ¬ str "charset" <:+: lower v ∧ ∀ c ∈ v, c ≠ 0x17F

/-- The value is the type of the contents. -/
def IsType (v : List Nat) : Prop := ∃ a k b, v = a ++ k ++ b ∧ Ws a ∧ Ws b ∧ lower k = str "content-type"

/-- The element declares the encoding `w`: by its attribute `charset`, or without that, by its one attribute `content`. -/
def Declares (u : Uni) (as : List MAttr) (w : List Nat) : Prop :=
  (∃ l1 l2 n, as = l1 ++ ⟨n, w⟩ :: l2 ∧ lower n = str "charset" ∧ w ≠ [] ∧ ∀ b ∈ l1, lower b.name ≠ str "charset") ∨
  ((∀ b ∈ as, lower b.name ≠ str "charset") ∧ (∃ b ∈ as, lower b.name = str "http-equiv" ∧ IsType b.value) ∧
    ∃ l1 l2 n v, as = l1 ++ ⟨n, v⟩ :: l2 ∧ lower n = str "content" ∧ ContentTells u v w ∧ ∀ b ∈ l1 ++ l2, lower b.name ≠ str "content")

/-- The element declares no encoding: it has no attribute `charset`, and no `http-equiv` with the type, or
    nothing in `content`. -/
def Silent (as : List MAttr) : Prop :=
  (∀ b ∈ as, lower b.name ≠ str "charset") ∧
    ((∀ b ∈ as, lower b.name = str "http-equiv" → ¬ str "content-type" <:+: lower b.value) ∨ ∀ b ∈ as, lower b.name = str "content" → ContentSilent b.value)

end Parce.Html
