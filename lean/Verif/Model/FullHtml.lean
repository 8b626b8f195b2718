import Verif.Model.Formatter

/-!
# Complete HTML documents (parce/out/html.py:57-86)
-/
namespace Parce.FH

/-- The parts of `FULL_HTML_TEMPLATE` (out/html.py:57-70) between the fields. -/
def part1 : List Char := "<!DOCTYPE html>\n<html>\n  <head>\n    <meta charset=\"".toList
def part2 : List Char := "\"/>\n  </head>\n  <body>\n    <div class=\"parce\">\n".toList
def part3 : List Char := "<pre style=\"white-space: pre; ".toList
def part4 : List Char := "\">".toList
def part5 : List Char := "</pre>\n    </div>\n  </body>\n</html>\n".toList

/-- `full_html` (out/html.py:75-86): `base` is `self.baseformat()`, `content` is `self.html(cursor)`. -/
def fullHtml (charset : List Char) (base : Option (List Char)) (content : List Char) : List Char :=
  part1 ++ charset ++ part2 ++ part3 ++ base.getD [] ++ part4 ++ content ++ part5

end Parce.FH
