import Verif.Model.Util
import Verif.Model.Re
/-!
# Reading and writing: `docio.py`

Text is a list of code points, data a list of bytes. Codecs are a parameter: `codecs.lookup(name)`
gives a codec or fails. Simplified: `errors` is always None (strict); the codec gets the data as a
whole; the file itself is not modelled; the root lexicon is a function of the piece of text that is
read first (`registry.find`, or constant).
-/
namespace Parce.DocIO

abbrev Txt := List Nat
abbrev Bytes := List UInt8
abbrev Name := List Nat

def str (s : String) : List Nat := s.toList.map Char.toNat

/-- A codec. `ignore` is decoding with `errors="ignore"`. `isText` is false for codecs like `hex` and
    `rot13`, that `codecs.lookup` finds but `io.TextIOWrapper` refuses with a LookupError. -/
structure Codec where
  encode : Txt → Option Bytes
  decode : Bytes → Option Txt
  ignore : Bytes → Txt
  isText : Bool := true

/-- `codecs.lookup`. -/
abbrev Codecs := Name → Option Codec

/-- The codec `io.TextIOWrapper` uses. -/
def wrapper (cs : Codecs) (n : Option Name) : Option Codec :=
  match n.bind cs with
  | some c => if c.isText then some c else none
  | none => none

inductive Err where
  | lookup
  | decode
  | encode
deriving DecidableEq

/-- An `IO` handler, `docio.py:172-204`. -/
structure Handler where
  find : Txt → Option Name
  dflt : Option Name

/-- The names returned by `get_bom_encoding`, `util.py:725-731`. -/
def bomName : Enc → Name
  | .utf8 => str "utf-8"
  | .utf16le => str "utf_16_le"
  | .utf16be => str "utf_16_be"
  | .utf32le => str "utf_32_le"
  | .utf32be => str "utf_32_be"

/-- `a or b` for strings or None; the empty string counts as None. -/
def orElse (a b : Option Name) : Option Name :=
  match a with
  | some (c :: w) => some (c :: w)
  | _ => b

/-- `_validate_encoding`, `docio.py:330-341`. -/
def validate (cs : Codecs) : Option Name → Option Name
  | some (c :: w) => if (cs (c :: w)).isSome then some (c :: w) else none
  | _ => none

/-- `TEMP_TEXT_MAXSIZE`, `docio.py:60`. -/
def maxSize : Nat := 5000

/-- The `newline` argument: None, or one of `''`, `'\n'`, `'\r'`, `'\r\n'`. -/
abbrev Newline := Option (List Nat)

/-- `\r\n` and `\r` become `\n`; `cr` tells that the character before is `\r`. -/
def universal : Bool → Txt → Txt
  | _, [] => []
  | cr, c :: t =>
    if c = 13 then 10 :: universal true t
    else if c = 10 ∧ cr = true then universal false t
    else c :: universal false t

/-- What reading with `io.TextIOWrapper` does with newlines. -/
def readNl : Newline → Txt → Txt
  | none, t => universal false t
  | some _, t => t

/-- What writing does; `sep` is `os.linesep`. -/
def writeNl (sep : List Nat) : Newline → Txt → Txt
  | none, t => t.flatMap (fun c => if c = 10 then sep else [c])
  | some [], t => t
  | some nl, t => t.flatMap (fun c => if c = 10 then nl else [c])

/-- The piece of text that is read first, `docio.py:279-280`. -/
def tempText (cs : Codecs) (readEnc : Option Enc) (data : Bytes) : Option Txt :=
  (cs (match readEnc with
    | none => str "latin1"
    | some e => bomName e)).map (fun c => c.ignore (data.take maxSize))

/-- `decode_data`, `docio.py:227-308`. -/
def decodeData {R : Type} (cs : Codecs) (root : Txt → R) (io : R → Handler) (data : Bytes) (encoding : Option Name) (nl : Newline) :
    Except Err (R × Txt × Option Name) :=
  let bom := getBomEncoding data
  let readEnc := bom.1.map bomName
  match tempText cs bom.1 bom.2 with
  | none => .error .lookup
  | some temp =>
    let r := root temp
    let docEnc := validate cs ((io r).find temp)
    let actual := orElse readEnc (orElse docEnc (orElse encoding (orElse (validate cs (io r).dflt) (some (str "utf-8")))))
    let enc := if orElse encoding none = none then orElse docEnc readEnc else encoding
    match wrapper cs actual with
    | none => .error .lookup
    | some c => match c.decode bom.2 with
      | none => .error .decode
      | some t => .ok (r, readNl nl t, enc)

/-- The encoding that is used to write, `docio.py:319-322`. -/
def writeEncoding (cs : Codecs) (h : Handler) (t : Txt) (encoding : Option Name) : Option Name :=
  orElse encoding (orElse (validate cs (orElse (h.find (t.take maxSize)) h.dflt)) (some (str "utf-8")))

/-- `encode_text`, `docio.py:311-327`. -/
def encodeText (cs : Codecs) (h : Handler) (sep : List Nat) (t : Txt) (encoding : Option Name) (nl : Newline) : Except Err Bytes :=
  match wrapper cs (writeEncoding cs h t encoding) with
  | none => .error .lookup
  | some c => match c.encode (writeNl sep nl t) with
    | none => .error .encode
    | some d => .ok d

/-- The attributes of a document. -/
structure Doc (R : Type) where
  root : R
  text : Txt
  encoding : Option Name

/-- `from_bytes`, `docio.py:135-153`. -/
def fromBytes {R : Type} (cs : Codecs) (root : Txt → R) (io : R → Handler) (data : Bytes) (encoding : Option Name) (nl : Newline) :
    Except Err (Doc R) :=
  match decodeData cs root io data encoding nl with
  | .error e => .error e
  | .ok (r, t, e) => .ok ⟨r, t, e⟩

/-- `to_bytes`, `docio.py:155-169`. -/
def Doc.toBytes {R : Type} (cs : Codecs) (io : R → Handler) (sep : List Nat) (d : Doc R) (encoding : Option Name) (nl : Newline) : Except Err Bytes :=
  encodeText cs (io d.root) sep d.text (orElse encoding d.encoding) nl

/-! ### `IO.find_encoding` -/

/-- A blank. -/
def blank : Pat Nat := .set (fun c => c == 9 || c == 32)

/-- `\b(?:en)coding[\t ]*?(?::[ \t]*?|=[\t ]*?")([\w_-]+)`, `docio.py:202`; `word` is `\w`. -/
def encodingPat (word : Nat → Bool) : Pat Nat :=
  .cat (.bound word) (.cat (.str (str "en")) (.cat (.str (str "coding")) (.cat (.lazy blank)
    (.cat (.alt (.cat (.str (str ":")) (.lazy blank)) (.cat (.str (str "=")) (.cat (.lazy blank) (.str (str "\"")))))
      (.grp 1 (.plus (.set (fun c => word c || c == 95 || c == 45))))))))

/-- `IO.find_encoding`, `docio.py:195-204`: the group of the first match. -/
def findEncoding (word : Nat → Bool) (t : Txt) : Option Name :=
  match rxSearch [encodingPat word] t 0 false with
  | none => none
  | some m => match m.rest.caps.find? (fun c => c.1 == 1) with
    | some c => some (slice t (m.start + c.2.1) (m.start + c.2.2))
    | none => none

/-! ### The codecs for Latin 1, UTF-8 and UTF-16 -/

def toBytes (l : List Nat) : Bytes := l.map UInt8.ofNat
def ofBytes (d : Bytes) : List Nat := d.map UInt8.toNat

/-- Latin 1. -/
def latin1 : Codec where
  encode t := if t.all (· < 256) then some (toBytes t) else none
  decode d := some (ofBytes d)
  ignore d := ofBytes d

/-- The bytes of a character in UTF-8. -/
def utf8Char (c : Nat) : Option (List Nat) :=
  if c < 0x80 then some [c]
  else if c < 0x800 then some [0xC0 + c / 64, 0x80 + c % 64]
  else if 0xD800 ≤ c ∧ c < 0xE000 then none
  else if c < 0x10000 then some [0xE0 + c / 4096, 0x80 + c / 64 % 64, 0x80 + c % 64]
  else if c < 0x110000 then some [0xF0 + c / 262144, 0x80 + c / 4096 % 64, 0x80 + c / 64 % 64, 0x80 + c % 64]
  else none

/-- The number of bytes of a character, known from the first one. -/
def utf8Len (a : Nat) : Nat := if a < 0x80 then 1 else if a < 0xE0 then 2 else if a < 0xF0 then 3 else 4

/-- The character of some bytes. -/
def utf8Val (a : Nat) : Nat → List Nat → Nat
  | 1, _ => a
  | 2, b :: _ => (a - 0xC0) * 64 + (b - 0x80)
  | 3, b :: b' :: _ => (a - 0xE0) * 4096 + (b - 0x80) * 64 + (b' - 0x80)
  | 4, b :: b' :: b'' :: _ => (a - 0xF0) * 262144 + (b - 0x80) * 4096 + (b' - 0x80) * 64 + (b'' - 0x80)
  | _, _ => 0

/-- The first character, and the number of its bytes. -/
def utf8First : List Nat → Option (Nat × Nat)
  | a :: d =>
    if utf8Char (utf8Val a (utf8Len a) d) = some ((a :: d).take (utf8Len a)) then some (utf8Val a (utf8Len a) d, utf8Len a) else none
  | [] => none

/-- Decoding, or ignoring the bytes that are wrong. -/
def utf8Loop (ignore : Bool) : (fuel : Nat) → List Nat → Option Txt
  | 0, _ => some []
  | fuel + 1, d => match d with
    | [] => some []
    | _ :: r => match utf8First d with
      | some (c, n) => (utf8Loop ignore fuel (d.drop n)).map (c :: ·)
      | none => if ignore then utf8Loop ignore fuel r else none

/-- The bytes of a text, if all characters can be encoded. -/
def encodeWith (f : Nat → Option (List Nat)) : Txt → Option (List Nat)
  | [] => some []
  | c :: t => match f c, encodeWith f t with
    | some b, some r => some (b ++ r)
    | _, _ => none

/-- UTF-8. (With `ignore`, Python may drop another number of bytes at an error.) -/
def utf8 : Codec where
  encode t := (encodeWith utf8Char t).map toBytes
  decode d := utf8Loop false d.length (ofBytes d)
  ignore d := (utf8Loop true d.length (ofBytes d)).getD []

/-- The units of a character in UTF-16. -/
def utf16Char (c : Nat) : Option (List Nat) :=
  if 0xD800 ≤ c ∧ c < 0xE000 then none
  else if c < 0x10000 then some [c]
  else if c < 0x110000 then some [0xD800 + (c - 0x10000) / 1024, 0xDC00 + (c - 0x10000) % 1024]
  else none

def utf16Loop (ignore : Bool) : (fuel : Nat) → List Nat → Option Txt
  | 0, _ => some []
  | fuel + 1, d => match d with
    | [] => some []
    | a :: r =>
      if a < 0xD800 ∨ 0xE000 ≤ a then (utf16Loop ignore fuel r).map (a :: ·)
      else match r with
        | b :: r' =>
          if a < 0xDC00 ∧ 0xDC00 ≤ b ∧ b < 0xE000 then
            (utf16Loop ignore fuel r').map ((0x10000 + (a - 0xD800) * 1024 + (b - 0xDC00)) :: ·)
          else if ignore then utf16Loop ignore fuel r else none
        | [] => if ignore then some [] else none

/-- Two bytes for each unit, the lower one first. -/
def unitBytes (l : List Nat) : List Nat := l.flatMap (fun u => [u % 256, u / 256])

def bytesUnits : List Nat → Option (List Nat)
  | [] => some []
  | [_] => none
  | a :: b :: d => (bytesUnits d).map ((a + 256 * b) :: ·)

/-- UTF-16, little endian, without a byte order mark. -/
def utf16le : Codec where
  encode t := (encodeWith utf16Char t).map (fun u => toBytes (unitBytes u))
  decode d := (bytesUnits (ofBytes d)).bind (fun u => utf16Loop false u.length u)
  ignore d := ((bytesUnits ((ofBytes d).take (d.length / 2 * 2))).bind (fun u => utf16Loop true u.length u)).getD []

/-- A table of names. -/
def codecs : Codecs := fun n =>
  if n = str "utf-8" then some utf8
  else if n = str "latin1" then some latin1
  else if n = str "utf_16_le" then some utf16le
  else if n = str "hex" then some { latin1 with isText := false }
  else none

end Parce.DocIO
