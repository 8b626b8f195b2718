import Verif.Model.DocIO
/-!
# Specification: saving and loading
-/
namespace Parce.DocIO

/-- Decoding what was encoded gives the text back. -/
def RoundTrips (c : Codec) : Prop := ∀ t d, c.encode t = some d → c.decode d = some t

/-- A codec for texts that writes ASCII characters as one byte each, and reads them so. -/
def AsciiCompatible (c : Codec) : Prop :=
  c.isText = true ∧ ∀ t : Txt, (∀ x ∈ t, x < 128) → c.encode t = some (t.map UInt8.ofNat) ∧ c.decode (t.map UInt8.ofNat) = some t

/-- A Unicode scalar value. -/
def Scalar (c : Nat) : Prop := c < 0xD800 ∨ (0xE000 ≤ c ∧ c < 0x110000)

/-- Reading translates newlines back: with `newline=None` the separator is one that reading
    recognises and the text has no carriage returns; with `''` or `'\n'` nothing is translated. -/
def NewlineSafe (sep : List Nat) : Newline → Txt → Prop
  | none, t => (sep = [10] ∨ sep = [13, 10] ∨ sep = [13]) ∧ 13 ∉ t
  | some nl, _ => nl = [] ∨ nl = [10]

/-- The data does not begin with a byte order mark. -/
def NoBom (d : Bytes) : Prop := ∀ e : Enc, ¬ e.bom <+: d

/-- The beginning of the data, taken as Latin 1. -/
def snippet (d : Bytes) : Txt := (d.take 5000).map UInt8.toNat

/-- A name that is not empty and known. -/
def Known (cs : Codecs) (n : Name) : Prop := n ≠ [] ∧ (cs n).isSome

/-- A name is given: not None and not empty. -/
def Given (n : Option Name) (e : Name) : Prop := n = some e ∧ e ≠ []

def NotGiven (n : Option Name) : Prop := n = none ∨ n = some []

/-- What the documentation of `decode_data` tells: the encoding of the byte order mark; otherwise the
    one the text mentions; otherwise the one that is specified; otherwise the default of the language;
    otherwise UTF-8. -/
inductive Reads (cs : Codecs) (h : Handler) (bom : Option Name) (snip : Txt) (specified : Option Name) : Name → Prop
  | bom (n) : bom = some n → Reads cs h bom snip specified n
  | declared (n) : bom = none → h.find snip = some n → Known cs n → Reads cs h bom snip specified n
  | specified (n) : bom = none → (∀ m, h.find snip = some m → ¬ Known cs m) → Given specified n →
      Reads cs h bom snip specified n
  | dflt (n) : bom = none → (∀ m, h.find snip = some m → ¬ Known cs m) → NotGiven specified → h.dflt = some n → Known cs n →
      Reads cs h bom snip specified n
  | utf8 : bom = none → (∀ m, h.find snip = some m → ¬ Known cs m) → NotGiven specified →
      (∀ m, h.dflt = some m → ¬ Known cs m) → Reads cs h bom snip specified (str "utf-8")

/-- What the documentation of `save` tells: the encoding that is specified; otherwise the one of the
    document; otherwise the one the text mentions; otherwise the default of the language; otherwise
    UTF-8. -/
inductive Writes (cs : Codecs) (h : Handler) (t : Txt) (specified attr : Option Name) : Name → Prop
  | specified (n) : Given specified n → Writes cs h t specified attr n
  | attr (n) : NotGiven specified → Given attr n → Writes cs h t specified attr n
  | declared (n) : NotGiven specified → NotGiven attr → h.find (t.take 5000) = some n → Known cs n → Writes cs h t specified attr n
  | dflt (n) : NotGiven specified → NotGiven attr → (∀ m, h.find (t.take 5000) = some m → ¬ Known cs m) → h.dflt = some n → Known cs n →
      Writes cs h t specified attr n
  | utf8 : NotGiven specified → NotGiven attr → (∀ m, h.find (t.take 5000) = some m → ¬ Known cs m) →
      (∀ m, h.dflt = some m → ¬ Known cs m) → Writes cs h t specified attr (str "utf-8")

/-- What is mentioned in the text is what is used: the same in the beginning of the text and of the
    data; a known name; and no other name is specified. -/
structure Consistent (cs : Codecs) (h : Handler) (t : Txt) (d : Bytes) (specified : Option Name) : Prop where
  same : NotGiven specified → h.find (t.take 5000) = h.find (snippet d)
  known : NotGiven specified → ∀ n, h.find (snippet d) = some n → Known cs n
  agrees : ∀ n, h.find (snippet d) = some n → Known cs n → ∀ e, Given specified e → n = e

end Parce.DocIO
