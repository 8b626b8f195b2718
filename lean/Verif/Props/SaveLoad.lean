import Verif.Lemmas.SaveLoad
import Verif.Props.DocIO
/-!
# Properties of loading and saving (C112)
-/
namespace Parce.SL
open Parce.DocIO
variable {R : Type}

/-- C112, which file. `localfile` gives a file exactly when the url has no scheme or the scheme `file`, and no host; and then
    it is the url itself, or the part between the scheme (with two slashes, if they are there) and the first
    question mark. -/
theorem C112_localfile (u p : Url) : localfile u = some p ↔ Names u p := by
  constructor
  · intro h
    unfold localfile at h
    simp only at h
    split at h
    · next hn =>
      rcases scheme_cases u with ⟨s, r, hs⟩ | ⟨hno, he⟩
      · rw [scheme_of_has hs] at h hn
        simp only at h hn
        split at h
        · next hf =>
          cases h
          by_cases hsl : ∃ t, r = '/' :: '/' :: t
          · obtain ⟨t, rfl⟩ := hsl
            have hnh := (netloc_nil _).1 hn
            rw [netloc_rest hnh]
            obtain ⟨q, h1, h2, h3⟩ := path_split t
            exact .file2 u s _ q (by rw [← h1]; exact hs) hf (by rw [← h1]; exact hnh) h2 h3
          · rw [netloc_other (fun t ht => hsl ⟨t, ht⟩)]
            obtain ⟨q, h1, h2, h3⟩ := path_split r
            exact .file u s _ q (by rw [← h1]; exact hs) hf (by rw [← h1]; exact fun t ht => hsl ⟨t, ht⟩) h2 h3
        · rw [if_neg hs.ne_nil] at h
          cases h
      · rw [he] at h hn
        simp only at h hn
        rw [if_neg (by decide)] at h
        simp only [if_true, Option.some.injEq] at h
        subst h
        exact .plain u hno ((netloc_nil u).1 hn)
    · cases h
  · intro h
    unfold localfile
    simp only
    cases h with
    | plain h1 h2 =>
      rcases scheme_cases u with ⟨s, r, hs⟩ | ⟨_, he⟩
      · exact absurd hs (h1 s r)
      · rw [he]
        simp only
        rw [if_pos ((netloc_nil u).2 h2), if_neg (by decide), if_pos trivial]
    | file s _ q hs hf hsl h2 h3 =>
      rw [scheme_of_has hs]
      simp only
      rw [netloc_other hsl]
      simp only [if_true, hf, path_of h2 h3]
    | file2 s _ q hs hf hnh h2 h3 =>
      rw [scheme_of_has hs]
      simp only
      rw [if_pos ((netloc_nil _).2 hnh), if_pos hf, netloc_rest hnh, path_of h2 h3]

example : Names "FILE:///tmp/a.txt?x".toList "/tmp/a.txt".toList ∧ localfile "http://x/y".toList = none ∧
    Names "/a%20b#c?d".toList "/a%20b#c?d".toList := by
  refine ⟨(C112_localfile _ _).1 (by decide), by decide, (C112_localfile _ _).1 (by decide)⟩

/-- C112, names. A name without a colon that does not start with two slashes is the file itself; and `file:` or `file://`
    before the name of a file from the root, without a question mark, is the url for it. -/
theorem C112_names (p : Url) :
    (':' ∉ p → (∀ t, p ≠ '/' :: '/' :: t) → localfile p = some p) ∧
    (∀ t, p = '/' :: t → '?' ∉ p → localfile ("file://".toList ++ p) = some p ∧
      ((∀ t, p ≠ '/' :: '/' :: t) → localfile ("file:".toList ++ p) = some p)) := by
  constructor
  · intro h1 h2
    refine (C112_localfile p p).2 (.plain p ?_ ?_)
    · rintro s r ⟨rfl, _⟩
      simp at h1
    · intro c t hc
      exact absurd hc (h2 _)
  · rintro t rfl hq
    have hs : ∀ r, HasScheme ("file:".toList ++ r) "file".toList r := by
      intro r
      refine ⟨rfl, ⟨'f', "ile".toList, rfl, rfl⟩, ?_⟩
      intro c hc
      have : c ∈ ['f', 'i', 'l', 'e'] := hc
      simp only [List.mem_cons, List.not_mem_nil, or_false] at this
      rcases this with rfl | rfl | rfl | rfl <;> rfl
    constructor
    · refine (C112_localfile _ _).2 (.file2 _ "file".toList ('/' :: t) [] ?_ (by decide) ?_ hq (.inl rfl))
      · have := hs ('/' :: '/' :: '/' :: t)
        simpa using this
      · intro c t' h
        simp only [List.append_nil, List.cons.injEq, true_and] at h
        exact .inl h.1.symm
    · intro hsl
      exact (C112_localfile _ _).2 (.file _ "file".toList ('/' :: t) [] (by simpa using hs ('/' :: t)) (by decide) (by simpa using hsl) hq (.inl rfl))

example : localfile "file:/tmp/x y".toList = some "/tmp/x y".toList := by decide

/-- C112, saving. If `save` raises nothing, the file that the url names has exactly the encoded text, no other file has
    changed, the text and the language are the same, and the document is not modified; the url and the encoding are those
    that were specified, or else as before. -/
theorem C112_save (cs : Codecs) (io : R → Handler) (sep : List Nat) (os : Url → Os) (url : Option Url) (enc : Option Name) (nl : Newline)
    (s s' : St R) (h : save cs io sep os url enc nl s = (s', none)) :
    ∃ u p d, s'.url = some u ∧ Names u p ∧ s.doc.toBytes cs io sep enc nl = .ok d ∧ s'.fs p = some d ∧ (∀ q, q ≠ p → s'.fs q = s.fs q) ∧
      s'.doc.root = s.doc.root ∧ s'.doc.text = s.doc.text ∧ s'.modified = false ∧
      (∀ e, Given enc e → s'.doc.encoding = some e) ∧ (NotGiven enc → s'.doc.encoding = s.doc.encoding) ∧
      (∀ v, url = some v → v ≠ [] → u = v) ∧ (url = none ∨ url = some [] → s.url = some u) := by
  unfold save at h
  simp only at h
  split at h
  · cases h
  · next d hd =>
    unfold write at h
    simp only at h
    split at h
    · cases h
    · next u hu =>
      split at h
      · cases h
      · next p hp =>
        split at h
        · cases h
        · cases h
        · simp only [Prod.mk.injEq, and_true] at h
          subst h
          refine ⟨u, p, d, hu, (C112_localfile u p).1 hp, ?_, by simp [FS.put], fun q hq => by simp [FS.put, hq], rfl, rfl, rfl, ?_, ?_, ?_, ?_⟩
          · rw [← hd]
            unfold Doc.toBytes
            simp only
            congr 1
            unfold orElse
            cases enc with
            | none => rfl
            | some e => cases e <;> rfl
          · exact fun e he => orElse_given he
          · exact fun he => orElse_notGiven he
          · rintro v rfl hv
            cases v with
            | nil => exact absurd rfl hv
            | cons c w =>
              simp only [orUrl, Option.some.injEq] at hu
              exact hu.symm
          · rintro (rfl | rfl) <;> exact hu

/-- A document with a text in Latin 1 that is saved under a new name. -/
def exSt : St Unit := ⟨⟨(), str "hi\n", some (str "latin1")⟩, some "/a".toList, true, fun _ => none⟩

example : (save DocIO.codecs (fun _ => ⟨fun _ => none, none⟩) [10] (fun _ => .works) (some "file:/b".toList) none none exSt).2 = none ∧
    (save DocIO.codecs (fun _ => ⟨fun _ => none, none⟩) [10] (fun _ => .works) (some "file:/b".toList) none none exSt).1.fs "/b".toList =
      some [104, 105, 10] := by
  constructor <;> rfl

/-- C112, errors. If `save` raises, the text, the language and the state of being modified are the same, and no file has
    changed unless writing to it failed. Partial: the url and the encoding are the same only if
    they were not specified (`C112_attributes_violated`), and the file to which writing failed has lost its contents
    (`C112_lost_violated`). -/
theorem C112_error_partial (cs : Codecs) (io : R → Handler) (sep : List Nat) (os : Url → Os) (url : Option Url) (enc : Option Name) (nl : Newline)
    (s s' : St R) (e : SErr) (h : save cs io sep os url enc nl s = (s', some e)) :
    s'.doc.root = s.doc.root ∧ s'.doc.text = s.doc.text ∧ s'.modified = s.modified ∧ (e ≠ .write → s'.fs = s.fs) ∧
    (e = .write → ∃ u p, s'.url = some u ∧ Names u p ∧ ∀ q, q ≠ p → s'.fs q = s.fs q) ∧
    (NotGiven enc → s'.doc.encoding = s.doc.encoding) ∧ (url = none → s'.url = s.url) := by
  unfold save at h
  simp only at h
  split at h
  · cases h
    exact ⟨rfl, rfl, rfl, (fun _ => rfl), (fun h => by cases h), (fun he => orElse_notGiven he), (fun h => by rw [h]; rfl)⟩
  · next d hd =>
    unfold write at h
    simp only at h
    split at h
    · cases h
      exact ⟨rfl, rfl, rfl, (fun _ => rfl), (fun h => by cases h), (fun he => orElse_notGiven he), (fun h => by rw [h]; rfl)⟩
    · next u hu =>
      split at h
      · cases h
        exact ⟨rfl, rfl, rfl, (fun _ => rfl), (fun h => by cases h), (fun he => orElse_notGiven he), (fun h => by rw [h]; rfl)⟩
      · next p hp =>
        split at h
        · cases h
          exact ⟨rfl, rfl, rfl, (fun _ => rfl), (fun h => by cases h), (fun he => orElse_notGiven he), (fun h => by rw [h]; rfl)⟩
        · cases h
          exact ⟨rfl, rfl, rfl, (fun h => absurd rfl h),
            (fun _ => ⟨u, p, hu, (C112_localfile u p).1 hp, fun q hq => by simp [FS.put, hq]⟩),
            (fun he => orElse_notGiven he), (fun h => by rw [h]; rfl)⟩
        · cases h

example : (save DocIO.codecs (fun _ => ⟨fun _ => none, none⟩) [10] (fun _ => .refuse) none none none exSt).2 = some .refused := rfl

/-- C112, loading what was saved. Loading the url of a document that was just saved reads exactly the data that
    `to_bytes` gives, and the new document has that url and is not modified. (Whether it has the same text is
    C72.) -/
theorem C112_load (cs : Codecs) (io : R → Handler) (sep : List Nat) (os : Url → Os) (url : Option Url) (enc : Option Name) (nl : Newline)
    (s s' : St R) (h : save cs io sep os url enc nl s = (s', none)) (root : Txt → R) (enc' : Option Name) (nl' : Newline) :
    ∃ u d, s'.url = some u ∧ s.doc.toBytes cs io sep enc nl = .ok d ∧
      (∀ doc, fromBytes cs root io d enc' nl' = .ok doc → load cs root io s'.fs u enc' nl' = .ok ⟨doc, some u, false, s'.fs⟩) ∧
      (∀ e, fromBytes cs root io d enc' nl' = .error e → load cs root io s'.fs u enc' nl' = .error (.codec e)) := by
  obtain ⟨u, p, d, h1, h2, h3, h4, _⟩ := C112_save cs io sep os url enc nl s s' h
  refine ⟨u, d, h1, h3, ?_, ?_⟩
  · intro doc hd
    unfold load
    rw [(C112_localfile u p).2 h2]
    simp only [h4, hd]
  · intro e hd
    unfold load
    rw [(C112_localfile u p).2 h2]
    simp only [h4, hd]

/-- C112 does not hold: a `file:` url with a blank is written with `%20`, but that is not decoded, so another file is
    read and written. -/
theorem C112_percent_violated : localfile "file:///tmp/a%20b".toList = some "/tmp/a%20b".toList := by decide

/-- C112 does not hold: the name of a file can have a question mark; in a `file:` url what follows is lost, and another file is written. -/
theorem C112_query_violated : localfile "file:/tmp/a?b".toList = some "/tmp/a".toList := by decide

/-- C112 does not hold: the name of a local file can start with letters and a colon, as names with drives do on
    Windows; it is refused. -/
theorem C112_colon_violated : localfile "C:/a.txt".toList = none ∧ localfile "re:hello.txt".toList = none := by
  constructor <;> decide

/-- C112 does not hold: if the text can't be encoded, the document has got the new url and the new encoding, though it was not saved;
    and the next `save()` fails as well. -/
theorem C112_attributes_violated : ∃ s : St Unit, s.url = some "/a".toList ∧
    (save DocIO.codecs (fun _ => ⟨fun _ => none, none⟩) [10] (fun _ => .works) (some "/b".toList) (some (str "latin1")) none s).2 =
      some (.codec .encode) ∧
    (save DocIO.codecs (fun _ => ⟨fun _ => none, none⟩) [10] (fun _ => .works) (some "/b".toList) (some (str "latin1")) none s).1.url =
      some "/b".toList ∧
    (save DocIO.codecs (fun _ => ⟨fun _ => none, none⟩) [10] (fun _ => .works) none none none s).2 = none ∧
    (save DocIO.codecs (fun _ => ⟨fun _ => none, none⟩) [10] (fun _ => .works) none none none
      (save DocIO.codecs (fun _ => ⟨fun _ => none, none⟩) [10] (fun _ => .works) (some "/b".toList) (some (str "latin1")) none s).1).2 =
      some (.codec .encode) := by
  refine ⟨⟨⟨(), [0x2200], none⟩, some "/a".toList, true, fun _ => none⟩, rfl, rfl, rfl, rfl, rfl⟩

/-- C112 does not hold: if writing fails, the old contents of the file are lost. -/
theorem C112_lost_violated : ∃ s : St Unit, s.fs "/a".toList = some [104, 105] ∧
    (save DocIO.codecs (fun _ => ⟨fun _ => none, none⟩) [10] (fun _ => .fail 0) none none none s).2 = some .write ∧
    (save DocIO.codecs (fun _ => ⟨fun _ => none, none⟩) [10] (fun _ => .fail 0) none none none s).1.fs "/a".toList = some [] := by
  refine ⟨⟨⟨(), str "hi", none⟩, some "/a".toList, true, fun p => if p = "/a".toList then some [104, 105] else none⟩, rfl, rfl, rfl⟩

end Parce.SL
