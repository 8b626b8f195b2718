import Verif.Model.DocIO
/-!
# Model of `CssIO.find_encoding`, parce/lang/css.py:312-323

`IO.find_encoding` is in `Verif.Model.DocIO`.
-/
namespace Parce.FEnc
open Parce.DocIO (str Txt Name)

/-- `@charset\s*"([\w_-]+)"`, `css.py:321`; `space` is `\s`, `word` is `\w`. -/
def charsetPat (space word : Nat → Bool) : Pat Nat :=
  .cat (.str (str "@charset")) (.cat (.star (.set space)) (.cat (.str (str "\""))
    (.cat (.grp 1 (.plus (.set (fun c => word c || c == 95 || c == 45)))) (.str (str "\"")))))

/-- `CssIO.find_encoding`, `css.py:318-323`: the group of the first match. -/
def cssEncoding (space word : Nat → Bool) (t : Txt) : Option Name :=
  match rxSearch [charsetPat space word] t 0 false with
  | none => none
  | some m => match m.rest.caps.find? (fun c => c.1 == 1) with
    | some c => some (slice t (m.start + c.2.1) (m.start + c.2.2))
    | none => none

end Parce.FEnc
