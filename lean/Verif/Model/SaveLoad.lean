import Verif.Model.DocIO
/-!
# Loading and saving: `docio.py:70-132` and `docio.py:207-224`

The file system is a function from names to contents. `urlparse` is that of CPython
(`urllib/parse.py`), for texts; not modelled there: characters that are stripped by newer versions (blanks and control characters
at the start; tabs and newlines), and the checks of brackets and of Unicode characters in the `netloc`, which raise.
-/
namespace Parce.SL
open Parce.DocIO

abbrev Url := List Char

/-- `scheme_chars` of `urllib.parse`. -/
def isSchemeChar (c : Char) : Bool := c.isAlphanum || c == '+' || c == '-' || c == '.'

/-- The text before and after the first character `c`; `none` if it is not there. -/
def splitAt (c : Char) : Url → Option (Url × Url)
  | [] => none
  | d :: u => if d = c then some ([], u) else (splitAt c u).map (fun p => (d :: p.1, p.2))

/-- The scheme (in lower case) and the rest, as `urlsplit` does: `:` is found, the first character
    is an ASCII letter, and all before the `:` are allowed in a scheme. -/
def scheme (u : Url) : Url × Url :=
  match splitAt ':' u with
  | some (c :: s, rest) => if c.isAlpha && (c :: s).all isSchemeChar then ((c :: s).map Char.toLower, rest) else ([], u)
  | _ => ([], u)

/-- `_splitnetloc`: the characters up to `/`, `?` or `#`, after `//`. -/
def netloc : Url → Url × Url
  | '/' :: '/' :: u => (u.takeWhile (fun c => c != '/' && c != '?' && c != '#'), u.dropWhile (fun c => c != '/' && c != '?' && c != '#'))
  | u => ([], u)

/-- The path: what is before the first `?`. (No fragment is split off, with `allow_fragments=False`; and no parameters as
    `file` is not in `uses_params`; with other schemes the path is not used.) -/
def path (u : Url) : Url := u.takeWhile (fun c => c != '?')

/-- `localfile`, `docio.py:207-224`; `none` is the ValueError. -/
def localfile (url : Url) : Option Url :=
  let s := scheme url
  let n := netloc s.2
  if n.1 = [] then
    if s.1 = "file".toList then some (path n.2)
    else if s.1 = [] then some url
    else none
  else none

/-- The errors: those of the codecs, no local file, no url at all (TypeError), the file can't be opened, writing
    fails. -/
inductive SErr where
  | codec (e : DocIO.Err)
  | notLocal
  | noUrl
  | notFound
  | refused
  | write
deriving DecidableEq

/-- The files. -/
abbrev FS := Url → Option Bytes

def FS.put (fs : FS) (p : Url) (d : Bytes) : FS := fun q => if q = p then some d else fs q

/-- What the operating system does when a file is opened for writing and written to: it is refused, or writing fails
    after some bytes, or it works. -/
inductive Os where
  | refuse
  | fail (n : Nat)
  | works
deriving DecidableEq

/-- A document and the files. -/
structure St (R : Type) where
  doc : Doc R
  url : Option Url
  modified : Bool
  fs : FS

variable {R : Type}

/-- `open(localfile(self.url), "wb")` and `f.write(data)`, `docio.py:130-132`. Opening a file for writing makes it
    empty. -/
def write (os : Url → Os) (d : Bytes) (s : St R) : St R × Option SErr :=
  match s.url with
  | none => (s, some .noUrl)
  | some u => match localfile u with
    | none => (s, some .notLocal)
    | some p => match os p with
      | .refuse => (s, some .refused)
      | .fail n => (⟨s.doc, s.url, s.modified, s.fs.put p (d.take n)⟩, some .write)
      | .works => (⟨s.doc, s.url, false, s.fs.put p d⟩, none)

/-- `if url: self.url = url` -/
def orUrl (a b : Option Url) : Option Url :=
  match a with
  | some (c :: w) => some (c :: w)
  | _ => b

/-- `save`, `docio.py:111-132`. -/
def save (cs : Codecs) (io : R → Handler) (sep : List Nat) (os : Url → Os) (url : Option Url) (encoding : Option Name) (nl : Newline)
    (s : St R) : St R × Option SErr :=
  let s' : St R := ⟨⟨s.doc.root, s.doc.text, orElse encoding s.doc.encoding⟩, orUrl url s.url, s.modified, s.fs⟩
  match s'.doc.toBytes cs io sep encoding nl with
  | .error e => (s', some (.codec e))
  | .ok d => write os d s'

/-- `load`, `docio.py:70-109`: the document, which has the url (`AbstractDocument.__init__`) and is not modified. -/
def load (cs : Codecs) (root : Txt → R) (io : R → Handler) (fs : FS) (url : Url) (encoding : Option Name) (nl : Newline) : Except SErr (St R) :=
  match localfile url with
  | none => .error .notLocal
  | some p => match fs p with
    | none => .error .notFound
    | some d => match fromBytes cs root io d encoding nl with
      | .error e => .error (.codec e)
      | .ok doc => .ok ⟨doc, some url, false, fs⟩

end Parce.SL
