import Verif.Model.DocIO
import Verif.Spec.Json
/-!
# The encoding that a text tells
-/
namespace Parce.FEnc
open Parce.Json (Uni)
open Parce.DocIO (str)

/-- A character of the name of an encoding. -/
def NameChar (u : Uni) (c : Nat) : Prop := u.word c = true ∨ c = 45

/-- The name of an encoding. -/
def IsName (u : Uni) (w : List Nat) : Prop := w ≠ [] ∧ ∀ c ∈ w, NameChar u c

def Blanks (w : List Nat) : Prop := ∀ c ∈ w, c = 9 ∨ c = 32

/-- `:` and blanks, or `=`, blanks and a double quote. -/
def Sep (w : List Nat) : Prop := ∃ b, Blanks b ∧ (w = str ":" ++ b ∨ w = str "=" ++ b ++ str "\"")

/-- Somewhere in the text is `key: w` or `key="w"`, and `key` is not in the text before. -/
def Tells (u : Uni) (key : List Nat) (t w : List Nat) : Prop :=
  ∃ pre b sep post, t = pre ++ (key ++ (b ++ (sep ++ (w ++ post)))) ∧ Blanks b ∧ Sep sep ∧ IsName u w ∧
    (∀ c, post.head? = some c → ¬ NameChar u c) ∧ (∀ c, pre.getLast? = some c → u.word c = false) ∧
    ∀ i < pre.length, ¬ key <+: t.drop i

/-- The stylesheet has the encoding `w`: that is so only with exactly these characters, and only at the start of the text
    (https://www.w3.org/TR/css-syntax-3/#charset-rule). -/
def CssTells (t w : List Nat) : Prop := 34 ∉ w ∧ ∃ post, t = str "@charset \"" ++ (w ++ (str "\";" ++ post))

end Parce.FEnc
