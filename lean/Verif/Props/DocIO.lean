import Verif.Lemmas.DocIO
import Verif.Props.Util
/-!
# C72, C73: saving and loading a document; which encoding is used
-/
namespace Parce.DocIO

theorem orElse_given {a b : Option Name} {e : Name} (h : Given a e) : orElse a b = some e := by
  obtain ⟨rfl, h⟩ := h
  cases e with
  | nil => exact absurd rfl h
  | cons c w => rfl

theorem orElse_notGiven {a b : Option Name} (h : NotGiven a) : orElse a b = b := by
  rcases h with rfl | rfl <;> rfl

theorem given_or (a : Option Name) : NotGiven a ∨ ∃ e, Given a e := by
  cases a with
  | none => exact .inl (.inl rfl)
  | some e => cases e with
    | nil => exact .inl (.inr rfl)
    | cons c w => exact .inr ⟨c :: w, rfl, by simp⟩

theorem validate_known {cs : Codecs} {n : Name} (h : Known cs n) : validate cs (some n) = some n := by
  obtain ⟨h1, h2⟩ := h
  cases n with
  | nil => exact absurd rfl h1
  | cons c w => simp [validate, h2]

theorem validate_cases (cs : Codecs) (a : Option Name) :
    (∃ n, a = some n ∧ Known cs n ∧ validate cs a = some n) ∨ ((∀ m, a = some m → ¬ Known cs m) ∧ validate cs a = none) := by
  cases a with
  | none => exact .inr ⟨by simp, rfl⟩
  | some n =>
    by_cases h : Known cs n
    · exact .inl ⟨n, rfl, h, validate_known h⟩
    · refine .inr ⟨by simpa using h, ?_⟩
      cases n with
      | nil => rfl
      | cons c w =>
        have : ¬ (cs (c :: w)).isSome := fun h' => h ⟨by simp, h'⟩
        simp [validate, this]

theorem known_given {cs : Codecs} {n : Name} (h : Known cs n) : Given (some n) n := ⟨rfl, h.1⟩

theorem bomName_ne (e : Enc) : bomName e ≠ [] := by cases e <;> decide

/-- The name `decode_data` computes. -/
def actualName (cs : Codecs) (h : Handler) (bom : Option Name) (snip : Txt) (encoding : Option Name) : Option Name :=
  orElse bom (orElse (validate cs (h.find snip)) (orElse encoding (orElse (validate cs h.dflt) (some (str "utf-8")))))

theorem actual_reads (cs : Codecs) (h : Handler) (bom : Option Enc) (snip : Txt) (encoding : Option Name) :
    ∃ n, actualName cs h (bom.map bomName) snip encoding = some n ∧ Reads cs h (bom.map bomName) snip encoding n := by
  unfold actualName
  cases bom with
  | some e =>
    refine ⟨bomName e, orElse_given ⟨rfl, bomName_ne e⟩, .bom _ rfl⟩
  | none =>
    rw [orElse_notGiven (a := Option.map bomName none) (.inl rfl)]
    rcases validate_cases cs (h.find snip) with ⟨n, hf, hk, hv⟩ | ⟨hf, hv⟩
    · exact ⟨n, by rw [hv]; exact orElse_given (known_given hk), .declared n rfl hf hk⟩
    · rw [hv, orElse_notGiven (.inl rfl)]
      rcases given_or encoding with hg | ⟨e, hg⟩
      · rw [orElse_notGiven hg]
        rcases validate_cases cs h.dflt with ⟨n, hd, hk, hv'⟩ | ⟨hd, hv'⟩
        · exact ⟨n, by rw [hv']; exact orElse_given (known_given hk), .dflt n rfl hf hg hd hk⟩
        · exact ⟨_, by rw [hv', orElse_notGiven (.inl rfl)], .utf8 rfl hf hg hd⟩
      · exact ⟨e, orElse_given hg, .specified e rfl hf hg⟩

theorem given_not {a : Option Name} {e : Name} (h : Given a e) : ¬ NotGiven a := by
  rintro (h' | h')
  · rw [h.1] at h'; cases h'
  · rw [h.1] at h'; cases h'; exact h.2 rfl

theorem reads_unique {cs : Codecs} {h : Handler} {bom : Option Name} {snip : Txt} {sp : Option Name} {n m : Name}
    (h1 : Reads cs h bom snip sp n) (h2 : Reads cs h bom snip sp m) : n = m := by
  cases h1 <;> cases h2 <;> simp_all [Given, NotGiven]
  all_goals grind

theorem fromBytes_eq {R : Type} (cs : Codecs) (root : Txt → R) (io : R → Handler) (d : Bytes) (enc : Option Name) (nl : Newline)
    (snip : Txt) (hs : tempText cs (getBomEncoding d).1 (getBomEncoding d).2 = some snip) :
    fromBytes cs root io d enc nl =
      match wrapper cs (actualName cs (io (root snip)) ((getBomEncoding d).1.map bomName) snip enc) with
      | none => .error .lookup
      | some c => match c.decode (getBomEncoding d).2 with
        | none => .error .decode
        | some t => .ok ⟨root snip, readNl nl t, if orElse enc none = none
            then orElse (validate cs ((io (root snip)).find snip)) ((getBomEncoding d).1.map bomName) else enc⟩ := by
  unfold fromBytes decodeData actualName
  simp only [hs]
  cases wrapper cs _ with
  | none => rfl
  | some c =>
    simp only
    cases c.decode (getBomEncoding d).2 <;> rfl

/-- **C73** (reading): when loading succeeds, the text is the data after the byte order mark, decoded with
    the encoding that the documentation tells, with newlines translated; there is only one such encoding. -/
theorem C73_reads {R : Type} (cs : Codecs) (root : Txt → R) (io : R → Handler) (d : Bytes) (enc : Option Name) (nl : Newline)
    (doc : Doc R) (h : fromBytes cs root io d enc nl = .ok doc) :
    ∃ snip n c t, tempText cs (getBomEncoding d).1 (getBomEncoding d).2 = some snip ∧ doc.root = root snip ∧
      Reads cs (io doc.root) ((getBomEncoding d).1.map bomName) snip enc n ∧
      (∀ m, Reads cs (io doc.root) ((getBomEncoding d).1.map bomName) snip enc m → m = n) ∧
      cs n = some c ∧ c.isText = true ∧ c.decode (getBomEncoding d).2 = some t ∧ doc.text = readNl nl t := by
  cases hs : tempText cs (getBomEncoding d).1 (getBomEncoding d).2 with
  | none => simp [fromBytes, decodeData, hs] at h
  | some snip =>
    rw [fromBytes_eq cs root io d enc nl snip hs] at h
    obtain ⟨n, hn, hr⟩ := actual_reads cs (io (root snip)) (getBomEncoding d).1 snip enc
    rw [hn] at h
    simp only [wrapper, Option.bind_some] at h
    cases hc : cs n with
    | none => simp [hc] at h
    | some c =>
      cases ht : c.isText with
      | false => simp [hc, ht] at h
      | true =>
        cases hd : c.decode (getBomEncoding d).2 with
        | none => simp [hc, ht, hd] at h
        | some t =>
          simp only [hc, ht, if_true, hd] at h
          cases h
          exact ⟨snip, n, c, t, rfl, rfl, hr, fun m hm => reads_unique hm hr, hc, ht, hd, rfl⟩

/-- **C73** (stored, partial): a specified encoding is stored. Without one, the encoding that is stored is
    the one that was used to read the text, if there is a byte order mark or the text mentions a known
    encoding, but not both. -/
theorem C73_stored_partial {R : Type} (cs : Codecs) (root : Txt → R) (io : R → Handler) (d : Bytes) (enc : Option Name) (nl : Newline)
    (doc : Doc R) (h : fromBytes cs root io d enc nl = .ok doc) :
    (∀ e, Given enc e → doc.encoding = some e) ∧
    ∀ snip n, tempText cs (getBomEncoding d).1 (getBomEncoding d).2 = some snip → NotGiven enc →
      Reads cs (io doc.root) ((getBomEncoding d).1.map bomName) snip enc n →
      ((getBomEncoding d).1.isSome ↔ ¬ ∃ m, (io doc.root).find snip = some m ∧ Known cs m) →
      doc.encoding = some n := by
  cases hs : tempText cs (getBomEncoding d).1 (getBomEncoding d).2 with
  | none => simp [fromBytes, decodeData, hs] at h
  | some snip =>
    rw [fromBytes_eq cs root io d enc nl snip hs] at h
    cases hc : wrapper cs (actualName cs (io (root snip)) ((getBomEncoding d).1.map bomName) snip enc) with
    | none => simp [hc] at h
    | some c =>
      cases hd : c.decode (getBomEncoding d).2 with
      | none => simp [hc, hd] at h
      | some t =>
        simp only [hc, hd] at h
        cases h
        refine ⟨fun e he => ?_, fun snip' n hs' hng hr hx => ?_⟩
        · simp only [orElse_given he]
          simpa using he.1
        · cases hs'
          simp only [orElse_notGiven hng, if_true]
          rcases validate_cases cs ((io (root snip)).find snip) with ⟨m, hf, hk, hv⟩ | ⟨hf, hv⟩
          · rw [hv, orElse_given (known_given hk)]
            have hb : (getBomEncoding d).1 = none := by
              cases hb : (getBomEncoding d).1 with
              | none => rfl
              | some e =>
                rw [hb] at hx
                exact absurd ⟨m, hf, hk⟩ (hx.1 rfl)
            rw [hb] at hr
            exact congrArg some (reads_unique (.declared m rfl hf hk) hr)
          · rw [hv, orElse_notGiven (.inl rfl)]
            cases hb : (getBomEncoding d).1 with
            | none =>
              rw [hb] at hx
              exfalso
              have := hx.2 (by rintro ⟨m, hm, hk⟩; exact hf m hm hk)
              cases this
            | some e =>
              rw [hb] at hr
              exact congrArg some (reads_unique (.bom _ rfl) hr)

theorem writes_unique {cs : Codecs} {h : Handler} {t : Txt} {sp at_ : Option Name} {n m : Name}
    (h1 : Writes cs h t sp at_ n) (h2 : Writes cs h t sp at_ m) : n = m := by
  cases h1 <;> cases h2 <;> simp_all [Given, NotGiven]
  all_goals grind

/-- **C73** (writing, partial): when saving succeeds, the data is the text with newlines translated,
    encoded with the encoding that the documentation tells, if the name that the text mentions (if any)
    is known. -/
theorem C73_writes_partial {R : Type} (cs : Codecs) (io : R → Handler) (sep : List Nat) (doc : Doc R) (enc : Option Name) (nl : Newline)
    (d : Bytes) (h : doc.toBytes cs io sep enc nl = .ok d)
    (hk : ∀ m, (io doc.root).find (doc.text.take 5000) = some m → Known cs m) :
    ∃ n c, Writes cs (io doc.root) doc.text enc doc.encoding n ∧
      (∀ m, Writes cs (io doc.root) doc.text enc doc.encoding m → m = n) ∧
      cs n = some c ∧ c.isText = true ∧ c.encode (writeNl sep nl doc.text) = some d := by
  suffices hw : ∃ n, writeEncoding cs (io doc.root) doc.text (orElse enc doc.encoding) = some n ∧
      Writes cs (io doc.root) doc.text enc doc.encoding n by
    obtain ⟨n, hn, hw⟩ := hw
    unfold Doc.toBytes encodeText at h
    rw [hn] at h
    simp only [wrapper, Option.bind_some] at h
    cases hc : cs n with
    | none => simp [hc] at h
    | some c =>
      cases ht : c.isText with
      | false => simp [hc, ht] at h
      | true =>
        simp only [hc, ht, if_true] at h
        cases hd : c.encode (writeNl sep nl doc.text) with
        | none => simp [hd] at h
        | some d' =>
          simp only [hd] at h
          cases h
          exact ⟨n, c, hw, fun m hm => writes_unique hm hw, hc, ht, hd⟩
  unfold writeEncoding
  rcases given_or enc with he | ⟨e, he⟩
  · rw [orElse_notGiven he]
    rcases given_or doc.encoding with ha | ⟨a, ha⟩
    · rw [orElse_notGiven ha]
      show ∃ n, orElse (validate cs (orElse ((io doc.root).find (doc.text.take 5000)) (io doc.root).dflt)) (some (str "utf-8")) = some n ∧ _
      cases hf : (io doc.root).find (doc.text.take 5000) with
      | some m =>
        have hm := hk m hf
        rw [orElse_given (known_given hm), validate_known hm, orElse_given (known_given hm)]
        exact ⟨m, rfl, .declared m he ha hf hm⟩
      | none =>
        rw [orElse_notGiven (.inl rfl)]
        rcases validate_cases cs (io doc.root).dflt with ⟨n, hd, hk', hv⟩ | ⟨hd, hv⟩
        · exact ⟨n, by rw [hv]; exact orElse_given (known_given hk'), .dflt n he ha (by simp [hf]) hd hk'⟩
        · exact ⟨_, by rw [hv, orElse_notGiven (.inl rfl)], .utf8 he ha (by simp [hf]) hd⟩
    · rw [orElse_given ha]
      exact ⟨a, rfl, .attr a he ha⟩
  · rw [orElse_given he]
    exact ⟨e, orElse_given ⟨rfl, he.2⟩, .specified e he⟩

/-! ### Saving and loading again -/

theorem snippet_eq {cs : Codecs} {d : Bytes} (hl : cs (str "latin1") = some latin1) (hb : NoBom d) :
    tempText cs (getBomEncoding d).1 (getBomEncoding d).2 = some (snippet d) := by
  rw [C41_none d hb]
  simp only [tempText, hl, Option.map_some]
  rfl

/-- **C72** (partial): a document that is saved, and loaded with the encoding it was saved with (or without
    one, if there was none), has the same root lexicon and text; saving it again gives the same data.
    Needed: codecs that give back what they encode; a text without carriage returns (or `newline=''`); data
    that does not begin with a byte order mark; the encoding the text mentions is known and is the one used.
    The root lexicon is found in the data. -/
theorem C72_roundtrip_partial {R : Type} (cs : Codecs) (root : Txt → R) (io : R → Handler) (sep : List Nat) (doc : Doc R)
    (enc : Option Name) (nl : Newline) (d : Bytes)
    (hsave : doc.toBytes cs io sep enc nl = .ok d)
    (hcs : ∀ n c, cs n = some c → RoundTrips c) (hl : cs (str "latin1") = some latin1)
    (hnl : NewlineSafe sep nl doc.text) (hbom : NoBom d) (hroot : root (snippet d) = doc.root)
    (hcon : Consistent cs (io doc.root) doc.text d (orElse enc doc.encoding)) :
    ∃ doc', fromBytes cs root io d (orElse enc doc.encoding) nl = .ok doc' ∧ doc'.root = doc.root ∧ doc'.text = doc.text ∧
      doc'.toBytes cs io sep none nl = .ok d := by
  have hs := snippet_eq hl hbom
  rw [fromBytes_eq cs root io d _ nl (snippet d) hs, C41_none d hbom, hroot]
  unfold Doc.toBytes at hsave ⊢
  generalize orElse enc doc.encoding = e at hsave hcon
  obtain ⟨r, t, a⟩ := doc
  simp only at *
  generalize hio : io r = h at *
  -- the names are the same
  have hn : ∃ n, actualName cs h none (snippet d) e = some n ∧ writeEncoding cs h t e = some n ∧
      writeEncoding cs h t (if orElse e none = none then orElse (validate cs (h.find (snippet d))) none else e) = some n := by
    unfold actualName
    rw [orElse_notGiven (a := none) (.inl rfl)]
    rcases given_or e with he | ⟨e', he⟩
    · have hf := hcon.same he
      have hw : writeEncoding cs h t e = orElse (validate cs (orElse (h.find (snippet d)) h.dflt)) (some (str "utf-8")) := by
        unfold writeEncoding
        rw [orElse_notGiven he, show t.take maxSize = t.take 5000 from rfl, hf]
      rw [hw, orElse_notGiven he, orElse_notGiven he, if_pos rfl]
      cases hff : h.find (snippet d) with
      | none =>
        have hsome : ∃ n, orElse (validate cs h.dflt) (some (str "utf-8")) = some n := by
          rcases given_or (validate cs h.dflt) with h1 | ⟨n, h1⟩
          · exact ⟨_, orElse_notGiven h1⟩
          · exact ⟨n, orElse_given h1⟩
        obtain ⟨n, hn⟩ := hsome
        have e1 : orElse (validate cs none) (orElse (validate cs h.dflt) (some (str "utf-8"))) = some n := hn
        have e2 : orElse (validate cs (orElse none h.dflt)) (some (str "utf-8")) = some n := hn
        refine ⟨n, e1, e2, ?_⟩
        unfold writeEncoding
        rw [show t.take maxSize = t.take 5000 from rfl, hf, hff]
        exact hn
      | some m =>
        have hm := hcon.known he m hff
        rw [validate_known hm, orElse_given (known_given hm), orElse_given (known_given hm), orElse_given (known_given hm),
          validate_known hm]
        refine ⟨m, rfl, orElse_given (known_given hm), ?_⟩
        unfold writeEncoding
        exact orElse_given (known_given hm)
    · have hw : writeEncoding cs h t e = some e' := by
        unfold writeEncoding
        exact orElse_given he
      rw [orElse_given (b := none) he, if_neg (by simp), hw]
      refine ⟨e', ?_, rfl, rfl⟩
      rcases validate_cases cs (h.find (snippet d)) with ⟨m, hf, hk, hv⟩ | ⟨hf, hv⟩
      · have := hcon.agrees m hf hk e' he
        subst this
        rw [hv]
        exact orElse_given (known_given hk)
      · rw [hv, orElse_notGiven (.inl rfl)]
        exact orElse_given he
  obtain ⟨n, h1, h2, h3⟩ := hn
  have henc : ∀ e', writeEncoding cs h t e' = some n → encodeText cs h sep t e' nl = encodeText cs h sep t e nl := by
    intro e' he'
    unfold encodeText
    rw [he', h2]
  rw [show Option.map bomName none = none from rfl, h1]
  have hsave' := hsave
  unfold encodeText at hsave
  rw [h2] at hsave
  cases hc : wrapper cs (some n) with
  | none => simp [hc] at hsave
  | some c =>
    simp only [hc] at hsave ⊢
    cases hd : c.encode (writeNl sep nl t) with
    | none => simp [hd] at hsave
    | some d' =>
      simp only [hd] at hsave
      cases hsave
      have hrt : RoundTrips c := by
        simp only [wrapper, Option.bind_some] at hc
        cases hcn : cs n with
        | none => simp [hcn] at hc
        | some c' =>
          simp only [hcn] at hc
          split at hc
          · cases hc; exact hcs n _ hcn
          · cases hc
      rw [hrt _ _ hd]
      refine ⟨_, rfl, rfl, newlines hnl, ?_⟩
      show encodeText cs (io r) sep (readNl nl (writeNl sep nl t)) (orElse none _) nl = _
      rw [hio, newlines hnl, orElse_notGiven (a := none) (.inl rfl), henc _ h3]
      exact hsave'

/-- The default handler, `docio.py:172-204`, with `\w` for ASCII. -/
def asciiWord (c : Nat) : Bool := (48 ≤ c && c ≤ 57) || (65 ≤ c && c ≤ 90) || c == 95 || (97 ≤ c && c ≤ 122)

def dfltIO : Unit → Handler := fun _ => ⟨findEncoding asciiWord, none⟩

def noRoot : Txt → Unit := fun _ => ()

def loads (d : Bytes) (enc : Option Name) (nl : Newline := none) : Except Err (Doc Unit) := fromBytes codecs noRoot dfltIO d enc nl
def saves (d : Doc Unit) (enc : Option Name) (nl : Newline := none) : Except Err Bytes := d.toBytes codecs dfltIO [10] enc nl

/-- What is needed is met: a text that mentions its encoding, without an encoding that is specified. -/
example : let t := str "encoding: latin1\n\xe9"
    ∃ d, saves ⟨(), t, none⟩ none = .ok d ∧ NewlineSafe [10] none t ∧ NoBom d ∧ Consistent codecs (dfltIO ()) t d none ∧
    ∃ doc', loads d none = .ok doc' ∧ doc'.text = t ∧ doc'.encoding = some (str "latin1") := by
  have hd : latin1.encode (str "encoding: latin1\n\xe9") = some (toBytes (str "encoding: latin1\n\xe9")) := by decide +kernel
  have hf : (dfltIO ()).find (snippet (toBytes (str "encoding: latin1\n\xe9"))) = some (str "latin1") := by decide +kernel
  refine ⟨toBytes (str "encoding: latin1\n\xe9"), rfl, ⟨.inl rfl, by decide⟩, ?_, ⟨fun _ => ?_, fun _ n hn => ?_, fun n _ _ e he => ?_⟩,
    _, rfl, ?_, ?_⟩
  · intro e
    cases e <;> decide
  · decide +kernel
  · rw [hf] at hn
    cases hn
    exact ⟨by decide, by simp [codecs, str]⟩
  · cases he.1
  · decide +kernel
  · decide +kernel

/-- **C72** (partial): every text of Unicode scalar values, without carriage returns and not beginning with
    U+FEFF, is saved as UTF-8 and loaded again when no encoding is specified, if the language has no other
    default and finds no encoding mentioned. -/
theorem C72_utf8_partial {R : Type} (r : R) (io : R → Handler) (sep : List Nat) (t : Txt)
    (hsep : sep = [10] ∨ sep = [13, 10] ∨ sep = [13])
    (ht : ∀ c ∈ t, Scalar c) (hcr : 13 ∉ t) (hfeff : t.head? ≠ some 0xFEFF)
    (hd : (io r).dflt = none ∨ (io r).dflt = some (str "utf-8"))
    (h1 : (io r).find (t.take 5000) = none) (h2 : ∀ d, utf8.encode (writeNl sep none t) = some d → (io r).find (snippet d) = none) :
    ∃ d doc', (Doc.mk r t none).toBytes codecs io sep none none = .ok d ∧
      fromBytes codecs (fun _ => r) io d none none = .ok doc' ∧ doc'.root = r ∧ doc'.text = t := by
  have hw : writeEncoding codecs (io r) t none = some (str "utf-8") := by
    unfold writeEncoding
    rw [show t.take maxSize = t.take 5000 from rfl, h1]
    rcases hd with hd | hd <;> rw [hd]
    · rfl
    · decide
  have hsc : ∀ c ∈ writeNl sep none t, Scalar c := by
    intro c hc
    simp only [writeNl, List.mem_flatMap] at hc
    obtain ⟨x, hx, hc⟩ := hc
    split at hc
    · rcases hsep with rfl | rfl | rfl <;> (simp at hc; unfold Scalar; omega)
    · simp at hc; subst hc; exact ht c hx
  obtain ⟨b, hb⟩ := utf8_encodes hsc
  have henc : utf8.encode (writeNl sep none t) = some (toBytes b) := by simp [utf8, hb]
  have hsave : (Doc.mk r t none).toBytes codecs io sep none none = .ok (toBytes b) := by
    unfold Doc.toBytes encodeText
    simp only [orElse]
    rw [hw]
    have : wrapper codecs (some (str "utf-8")) = some utf8 := by
      simp [wrapper, codecs, utf8]
    simp only [this, henc]
  have hhead : (writeNl sep none t).head? ≠ some 0xFEFF := by
    simp only [writeNl]
    cases t with
    | nil => simp
    | cons c t =>
      simp only [List.head?_cons, ne_eq, Option.some.injEq] at hfeff
      simp only [List.flatMap_cons]
      split
      · rcases hsep with rfl | rfl | rfl <;> simp
      · simpa using hfeff
  have hf := h2 _ henc
  obtain ⟨doc', e1, e2, e3, _⟩ := C72_roundtrip_partial codecs (fun _ => r) io sep ⟨r, t, none⟩ none none (toBytes b) hsave
    (fun n c h => codecs_roundTrips h) (by simp [codecs, str]) ⟨hsep, hcr⟩ (utf8_noBom henc hhead) rfl
    ⟨fun _ => by rw [h1, hf], fun _ n hn => absurd (hf.symm.trans hn) (by simp), fun n hn => absurd (hf.symm.trans hn) (by simp)⟩
  exact ⟨_, doc', hsave, e1, e2, e3⟩

/-- The text may have all kinds of characters. -/
example : let t := str "i " ++ [0xEF, 0x20AC, 0x1D11E, 10]
    (∀ c ∈ t, Scalar c) ∧ 13 ∉ t ∧ t.head? ≠ some 0xFEFF ∧ (dfltIO ()).find (t.take 5000) = none ∧
    ∀ d, utf8.encode (writeNl [10] none t) = some d → (dfltIO ()).find (snippet d) = none := by
  refine ⟨?_, by decide, by decide, by decide +kernel, fun d hd => ?_⟩
  · intro c hc
    simp [str] at hc
    unfold Scalar
    omega
  · have : utf8.encode (writeNl [10] none (str "i " ++ [0xEF, 0x20AC, 0x1D11E, 10])) =
        some [105, 32, 195, 175, 226, 130, 172, 240, 157, 132, 158, 10] := by decide +kernel
    rw [this] at hd
    cases hd
    decide +kernel

/-- **C72** (partial): when all codecs write ASCII characters as one byte, an ASCII text without carriage
    returns is loaded as it was saved, whatever encodings are specified (when saving and when loading), stored
    in the document or mentioned in the text. -/
theorem C72_ascii_partial {R : Type} (cs : Codecs) (root : Txt → R) (io : R → Handler) (doc : Doc R) (enc enc' : Option Name)
    (nl : Newline) (d : Bytes) (hcs : ∀ n c, cs n = some c → AsciiCompatible c) (hl : cs (str "latin1") = some latin1)
    (h8 : (cs (str "utf-8")).isSome) (hk : ∀ e, Given enc' e → Known cs e)
    (hnl : NewlineSafe [10] nl doc.text) (hascii : ∀ c ∈ doc.text, c < 128)
    (hsave : doc.toBytes cs io [10] enc nl = .ok d) :
    ∃ doc', fromBytes cs root io d enc' nl = .ok doc' ∧ doc'.text = doc.text := by
  have hw : writeNl [10] nl doc.text = doc.text := by
    cases nl with
    | none => exact flatMap_self _
    | some nl =>
      rcases hnl with rfl | rfl
      · rfl
      · exact flatMap_self _
  have hd : d = doc.text.map UInt8.ofNat := by
    unfold Doc.toBytes encodeText at hsave
    rw [hw] at hsave
    cases hc : wrapper cs (writeEncoding cs (io doc.root) doc.text (orElse enc doc.encoding)) with
    | none => simp [hc] at hsave
    | some c =>
      have : AsciiCompatible c := by
        unfold wrapper at hc
        cases hb : (writeEncoding cs (io doc.root) doc.text (orElse enc doc.encoding)).bind cs with
        | none => simp [hb] at hc
        | some c' =>
          simp only [hb] at hc
          split at hc
          · cases hc
            obtain ⟨n, _, hn⟩ := Option.bind_eq_some_iff.1 hb
            exact hcs n _ hn
          · cases hc
      simp only [hc, (this.2 doc.text hascii).1] at hsave
      cases hsave
      rfl
  have hbom : NoBom d := by
    intro e he
    have hmem : ∀ x ∈ e.bom, x.toNat < 128 := by
      intro x hx
      have := he.subset hx
      rw [hd, List.mem_map] at this
      obtain ⟨c, hc, rfl⟩ := this
      have := hascii c hc
      simp only [UInt8.toNat_ofNat']
      omega
    cases e <;> simp [Enc.bom] at hmem
  rw [fromBytes_eq cs root io d enc' nl (snippet d) (snippet_eq hl hbom), C41_none d hbom]
  obtain ⟨n, hn, hr⟩ := actual_reads cs (io (root (snippet d))) none (snippet d) enc'
  have hkn : (cs n).isSome := by
    cases hr with
    | bom _ h => cases h
    | declared _ _ _ h => exact h.2
    | specified _ _ _ h => exact (hk _ h).2
    | dflt _ _ _ _ _ h => exact h.2
    | utf8 => exact h8
  obtain ⟨c, hc⟩ := Option.isSome_iff_exists.1 hkn
  have hac := hcs n c hc
  have hdec := (hac.2 doc.text hascii).2
  simp only [hn, wrapper, Option.bind_some, hc, hac.1, if_true]
  rw [hd, hdec]
  exact ⟨_, rfl, by have := newlines hnl; rw [hw] at this; exact this⟩

/-- Latin 1 and UTF-8 are such codecs. -/
theorem latin1_ascii : AsciiCompatible latin1 := by
  refine ⟨rfl, fun t ht => ⟨?_, ?_⟩⟩
  · have : t.all (· < 256) = true := by
      rw [List.all_eq_true]
      intro x hx
      have := ht x hx
      simp only [decide_eq_true_eq]
      omega
    simp only [latin1, this, if_true]
    rfl
  · exact congrArg some (ofBytes_toBytes (l := t) (fun x hx => by have := ht x hx; omega))

theorem utf8_ascii : AsciiCompatible utf8 := by
  refine ⟨rfl, fun t ht => ?_⟩
  have h : encodeWith utf8Char t = some t := by
    induction t with
    | nil => rfl
    | cons c t ih =>
      have hc : utf8Char c = some [c] := by
        unfold utf8Char
        rw [if_pos (by have := ht c (by simp); omega)]
      simp [encodeWith, hc, ih (fun x hx => ht x (by simp [hx]))]
  have h1 : utf8.encode t = some (t.map UInt8.ofNat) := by simp only [utf8, h, Option.map_some]; rfl
  exact ⟨h1, utf8_roundTrips _ _ h1⟩

example : ∃ d, (Doc.mk () (str "encoding: latin1\n") none).toBytes codecs dfltIO [10] (some (str "utf-8")) none = .ok d ∧
    (∀ c ∈ str "encoding: latin1\n", c < 128) ∧ NewlineSafe [10] none (str "encoding: latin1\n") :=
  ⟨_, rfl, by decide, .inl rfl, by decide⟩

/-- **C72** (partial): data with a byte order mark is read with the encoding of the mark, whatever is specified. -/
theorem C72_bom_partial {R : Type} (cs : Codecs) (root : Txt → R) (io : R → Handler) (b : Enc) (c : Codec) (t : Txt) (d : Bytes)
    (enc : Option Name) (nl : Newline) (hb : b ≠ .utf32le) (hc : cs (bomName b) = some c) (htx : c.isText = true)
    (hrt : RoundTrips c) (he : c.encode t = some d) :
    ∃ doc, fromBytes cs root io (b.bom ++ d) enc nl = .ok doc ∧ doc.text = readNl nl t := by
  have hg := C41_bom_partial b d hb
  have hs : tempText cs (getBomEncoding (b.bom ++ d)).1 (getBomEncoding (b.bom ++ d)).2 = some (c.ignore (d.take maxSize)) := by
    rw [hg]
    simp [tempText, hc]
  rw [fromBytes_eq cs root io _ enc nl _ hs, hg]
  have ha : actualName cs (io (root (c.ignore (d.take maxSize)))) (Option.map bomName (some b)) (c.ignore (d.take maxSize)) enc = some (bomName b) :=
    orElse_given ⟨rfl, bomName_ne b⟩
  simp only [ha, wrapper, Option.bind_some, hc, htx, if_true, hrt t d he]
  exact ⟨_, rfl, rfl⟩

example : ∃ d, utf16le.encode (str "h\u20ac") = some d ∧ codecs (bomName .utf16le) = some utf16le := ⟨_, rfl, rfl⟩

/-! ### Where the code does not do what is claimed -/

/-- A file in UTF-16 with a byte order mark is read well, but saving it drops the mark; the file is then
    not read well: the text has changed to other characters. -/
theorem C72_utf16_violated :
    ∃ doc d doc', loads [0xFF, 0xFE, 104, 0, 105, 0] none = .ok doc ∧ doc.text = str "hi" ∧
      saves doc none = .ok d ∧ loads d none = .ok doc' ∧ doc'.text = [104, 0, 105, 0] := by
  refine ⟨_, _, _, rfl, ?_, rfl, rfl, ?_⟩ <;> decide +kernel

/-- A document that is saved with an encoding that is specified is read again with the one its text mentions. -/
theorem C72_declared_violated :
    ∃ d doc, saves ⟨(), str "encoding: latin1 \xe9", none⟩ (some (str "utf-8")) = .ok d ∧
      loads d (some (str "utf-8")) = .ok doc ∧ doc.text = str "encoding: latin1 \xc3\xa9" := by
  refine ⟨_, _, rfl, rfl, ?_⟩ <;> decide +kernel

/-- A U+FEFF at the beginning of a text is lost; and so are `ÿþ` in Latin 1. -/
theorem C72_feff_violated :
    (∃ d doc, saves ⟨(), [0xFEFF, 104], none⟩ none = .ok d ∧ loads d none = .ok doc ∧ doc.text = [104]) ∧
    (∃ d doc, saves ⟨(), [0xFF, 0xFE, 104, 0], none⟩ (some (str "latin1")) = .ok d ∧
      loads d (some (str "latin1")) = .ok doc ∧ doc.text = [104]) := by
  refine ⟨⟨_, _, rfl, rfl, ?_⟩, ⟨_, _, rfl, rfl, ?_⟩⟩ <;> decide +kernel

/-- A carriage return becomes a newline. -/
theorem C72_cr_violated :
    ∃ d doc, saves ⟨(), [104, 13, 105], none⟩ none = .ok d ∧ loads d none = .ok doc ∧ doc.text = [104, 10, 105] := by
  refine ⟨_, _, rfl, rfl, ?_⟩ <;> decide +kernel

/-- When the default encoding was used, None is stored, and not the encoding that was used; and when there is a
    byte order mark and the text mentions an encoding, the latter is stored although the former was used. -/
theorem C73_stored_violated :
    (∃ doc, loads [104] none = .ok doc ∧ doc.encoding = none ∧
      Reads codecs (dfltIO ()) none (snippet [104]) none (str "utf-8")) ∧
    (∃ doc, loads ([0xEF, 0xBB, 0xBF] ++ toBytes (str "encoding: latin1 ") ++ [0xC3, 0xA9]) none = .ok doc ∧
      doc.text = str "encoding: latin1 \xe9" ∧ doc.encoding = some (str "latin1")) := by
  refine ⟨⟨_, rfl, ?_, ?_⟩, ⟨_, rfl, ?_, ?_⟩⟩
  · decide +kernel
  · refine .utf8 rfl ?_ (.inl rfl) (by intro m hm; cases hm)
    intro m hm
    have : (dfltIO ()).find (snippet [104]) = none := by decide +kernel
    rw [this] at hm
    cases hm
  · decide +kernel
  · decide +kernel

/-- When the text mentions a name that is not known, loading uses the default of the language, but saving does not. -/
theorem C73_writes_violated :
    let io : Unit → Handler := fun _ => ⟨findEncoding asciiWord, some (str "latin1")⟩
    let t := str "encoding: nonsense \xe9"
    ∃ d doc, (Doc.mk () t none).toBytes codecs io [10] none none = .ok d ∧
      fromBytes codecs noRoot io d none none = .ok doc ∧ doc.text = str "encoding: nonsense \xc3\xa9" := by
  refine ⟨_, _, rfl, rfl, ?_⟩ <;> decide +kernel

/-- A text that mentions a codec like `hex`, that is not one for texts, can not be loaded, although no encoding
    was specified and the data is ASCII. -/
theorem C73_hex_violated : loads (toBytes (str "encoding: hex")) none = .error .lookup := by rfl

/-- The documentation of `find_encoding` says that `coding: xxx` is recognised; the regular expression wants `encoding`. -/
theorem C73_coding_violated : findEncoding asciiWord (str "coding: latin1") = none ∧
    findEncoding asciiWord (str "encoding: latin1") = some (str "latin1") ∧
    findEncoding asciiWord (str "<?xml encoding=\"latin1\"?>") = some (str "latin1") := by
  refine ⟨?_, ?_, ?_⟩ <;> decide +kernel

end Parce.DocIO
