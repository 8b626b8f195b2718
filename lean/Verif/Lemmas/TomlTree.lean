import Verif.Lemmas.TomlComment
import Verif.Lemmas.TomlMulti
/-!
# Values, arrays and inline tables of TOML texts
-/
namespace Parce.Toml
open Parce.Json (Uni str)
variable {u : Uni} {t : List Nat}

mutual
/-- A value; perhaps with some of the white space after it. -/
theorem val_go (hu : u.Ascii) : ∀ (v : Val), v.ok false → ∀ {l : TL}, VL l → ∀ {r post : List Nat}, Ws r → Fin post → Free u t (v.text ++ (r ++ post)) →
    ∀ (is : List V) (fs : List Fr) (n : Nat) (o : Bool), ∃ r', r' <:+ r ∧
    Go u t ⟨v.text ++ (r ++ post), (l, is) :: fs, n, o⟩ ⟨r' ++ post, (l, is ++ v.view) :: fs, 0, true⟩
  | .num w, hv, l, hl, r, post, hr, hp, hf, is, fs, n, o => by
    refine ⟨r, List.suffix_refl _, ?_⟩
    rcases hv with hv | hv
    · exact s_toks (vs := [.tok w .number]) (hits_dec hu hl hv (fin_end hr hp).1) rfl (by simp)
    · exact s_toks (vs := [.tok w .number]) (hits_radix hu hl hv (fin_end hr hp).1) rfl (by simp)
  | .stamp w, hv, l, hl, r, post, hr, hp, hf, is, fs, n, o =>
    ⟨r, List.suffix_refl _, s_toks (vs := [.tok w .timestamp]) (hits_stamp hu hl hv (fin_end hr hp)) rfl (by simp)⟩
  | .bool b, hv, l, hl, r, post, hr, hp, hf, is, fs, n, o =>
    ⟨r, List.suffix_refl _, s_toks (vs := [.tok (if b then str "true" else str "false") .constant])
      (hits_bool hu hl b (fin_end hr hp).1 hf) rfl (by simp)⟩
  | .basic p, hv, l, hl, r, post, hr, hp, hf, is, fs, n, o =>
    ⟨r, List.suffix_refl _, go_basic hu hv (fin_end hr hp).1.stop (hits_vquote hu hl hv (fin_end hr hp).1.stop)⟩
  | .lit w, hv, l, hl, r, post, hr, hp, hf, is, fs, n, o =>
    ⟨r, List.suffix_refl _, go_lit hu hv (fin_end hr hp).1.stop (hits_vapos hu hl hv (fin_end hr hp).1.stop)⟩
  | .mbasic m, hv, l, hl, r, post, hr, hp, hf, is, fs, n, o => ⟨r, List.suffix_refl _, mbasic_go hu hl hv (fin_end hr hp).1 is fs n o⟩
  | .mlit nl w, hv, l, hl, r, post, hr, hp, hf, is, fs, n, o => ⟨r, List.suffix_refl _, mlit_go hu hl hv (fin_end hr hp).1 is fs n o⟩
  | .arr e, hv, l, hl, r, post, hr, hp, hf, is, fs, n, o => by
    obtain ⟨b, r', rfl, hb, hr'⟩ := ws_split hr
    have g1 := s_enter (is := is) (fs := fs) (n := n) (o := o) (vs := [.tok [91] .bracket]) (hits_open (t := t) hu hl (e.text ++ 93 :: (b ++ r' ++ post))) rfl (by simp)
    have hf' : Free u t (e.text ++ 93 :: (b ++ r' ++ post)) := by
      refine Free.next (x := []) (c := 91) ?_ (word_low hu 91 (by simp))
      simpa [Val.text] using hf
    obtain ⟨n', o', g2⟩ := elems_go hu e hv (b ++ r' ++ post) hf' [] ((l, is ++ [.tok [91] .bracket]) :: fs) 1 true
    obtain ⟨a, h1, h2⟩ := hits_arrEnd (t := t) hu (post := r' ++ post) hb (by
      intro c hc
      rcases hr' with rfl | ⟨s, rfl⟩
      · obtain ⟨d, q, rfl, hd⟩ := hp
        obtain rfl : d = c := Option.some.inj hc
        exact hd
      · obtain rfl : 10 = c := Option.some.inj hc
        exact .inl rfl)
    have g3 := s_leave (is := [] ++ e.view) (l0 := l) (is0 := is ++ [.tok [91] .bracket]) (fs := fs) (n := n') (o := o') h1 h2 (by simp)
    refine ⟨r', List.suffix_append _ _, ?_⟩
    rw [show 93 :: b ++ (r' ++ post) = 93 :: (b ++ r' ++ post) by simp] at g3
    have := (g1.trans g2).trans g3
    simpa [Val.text, Val.view, mk] using this
  | .inf s nan, hv, l, hl, r, post, hr, hp, hf, is, fs, n, o =>
    ⟨r, List.suffix_refl _, s_toks (vs := [.tok (s ++ infText nan) .number]) (hits_inf hu hl hv nan (fin_end hr hp).1 hf) rfl (by simp)⟩
  | .tbl f, hv, l, hl, r, post, hr, hp, hf, is, fs, n, o => by
    have g1 := s_enter (is := is) (fs := fs) (n := n) (o := o) (vs := [.tok [123] .bracket]) (hits_brace (t := t) hu hl (f.text ++ (r ++ post))) rfl (by simp)
    have hs : f.text ++ (r ++ post) <:+ t := by
      obtain ⟨d, hd, _⟩ := hf
      exact (List.suffix_append [d, 123] _).trans hd
    have g2 := fields_go hu f hv (r ++ post) hs [] l (is ++ [.tok [123] .bracket]) fs 1
    refine ⟨r, List.suffix_refl _, ?_⟩
    have := g1.trans g2
    simpa [Val.text, Val.view, mk] using this
theorem elems_go (hu : u.Ascii) : ∀ (e : Elems), e.ok false → ∀ (post : List Nat), Free u t (e.text ++ 93 :: post) →
    ∀ (is : List V) (fs : List Fr) (n : Nat) (o : Bool), ∃ n' o',
    Go u t ⟨e.text ++ 93 :: post, (.array, is) :: fs, n, o⟩ ⟨93 :: post, (.array, is ++ e.view) :: fs, n', o'⟩
  | .nil g, he, post, hf, is, fs, n, o => by
    obtain ⟨n', o', g1⟩ := arr_gap (t := t) hu g he (93 :: post) is fs n o
    exact ⟨n', o', by simpa [Elems.text, Elems.view] using g1⟩
  | .last a v r, he, post, hf, is, fs, n, o => by
    obtain ⟨h1, h2, h3⟩ := he
    have e1 : (Elems.last a v r).text ++ 93 :: post = a.text ++ (v.text ++ (r.text ++ 93 :: post)) := by simp [Elems.text]
    rw [e1] at hf ⊢
    obtain ⟨n1, o1, g1⟩ := arr_gap (t := t) hu a h1 (v.text ++ (r.text ++ 93 :: post)) is fs n o
    obtain ⟨n2, o2, g2⟩ := elem_gap hu (fun hr hp hf is fs n o => val_go hu v h2 (.inr (.inl rfl)) hr hp hf is fs n o) r h3 ⟨93, post, rfl, by simp⟩
      (free_gap hu h1 hf) (is ++ a.view) fs n1 o1
    exact ⟨n2, o2, by simpa [Elems.view] using g1.trans g2⟩
  | .more a v r e, he, post, hf, is, fs, n, o => by
    obtain ⟨h1, h2, h3, h4⟩ := he
    have e1 : (Elems.more a v r e).text ++ 93 :: post = a.text ++ (v.text ++ (r.text ++ 44 :: (e.text ++ 93 :: post))) := by simp [Elems.text]
    rw [e1] at hf ⊢
    obtain ⟨n1, o1, g1⟩ := arr_gap (t := t) hu a h1 (v.text ++ (r.text ++ 44 :: (e.text ++ 93 :: post))) is fs n o
    obtain ⟨n2, o2, g2⟩ := elem_gap hu (fun hr hp hf is fs n o => val_go hu v h2 (.inr (.inl rfl)) hr hp hf is fs n o) r h3 ⟨44, _, rfl, by simp⟩
      (free_gap hu h1 hf) (is ++ a.view) fs n1 o1
    have g4 := s_toks (is := is ++ a.view ++ (v.view ++ r.view)) (fs := fs) (n := n2) (o := o2) (vs := [.tok [44] .separator]) (hits_comma (t := t) hu (e.text ++ 93 :: post)) rfl (by simp)
    have hf' : Free u t (e.text ++ 93 :: post) := by
      refine Free.next (x := a.text ++ (v.text ++ r.text)) (c := 44) ?_ (word_low hu 44 (by simp))
      simpa using hf
    obtain ⟨n5, o5, g5⟩ := elems_go hu e h4 post hf' (is ++ a.view ++ (v.view ++ r.view) ++ [.tok [44] .separator]) fs 0 true
    have := ((g1.trans g2).trans g4).trans g5
    exact ⟨n5, o5, by simpa [Elems.view] using this⟩
theorem fields_go (hu : u.Ascii) : ∀ (f : Fields), f.ok false → ∀ (post : List Nat), f.text ++ post <:+ t →
    ∀ (is : List V) (l0 : TL) (is0 : List V) (fs : List Fr) (n : Nat),
    Go u t ⟨f.text ++ post, (.inlineTable, is) :: (l0, is0) :: fs, n, true⟩ ⟨post, (l0, is0 ++ [mk .inlineTable (is ++ f.view)]) :: fs, 0, true⟩
  | .nil b, hk, post, hs, is, l0, is0, fs, n => by
    have g1 := go_inlBlank (t := t) (c := 125) (post := post) hu hk (by rw [hu.space 125 (by decide)]; decide) is ((l0, is0) :: fs) n
    have g2 := s_leave (is := is) (l0 := l0) (is0 := is0) (fs := fs) (n := n) (o := true) (vs := [.tok [125] .bracket]) (hits_tblEnd (t := t) hu post) rfl (by simp)
    have := g1.trans g2
    simpa [Fields.text, Fields.view, mk] using this
  | .last b0 k b a v r, hk, post, hs, is, l0, is0, fs, n => by
    obtain ⟨h1, h2, h3, h4, h5, h6⟩ := hk
    have e1 : (Fields.last b0 k b a v r).text ++ post = b0 ++ (k.text ++ (b ++ 61 :: (a ++ (v.text ++ (r ++ 125 :: post))))) := by simp [Fields.text]
    rw [e1] at hs ⊢
    obtain ⟨o, g1⟩ := field_go hu h1 h2 h3 h4 h6 (v := v) (fun hf is fs n o => val_go hu v h5 (.inr (.inr rfl)) (blank_ws h6) ⟨125, post, rfl, by simp⟩ hf is fs n o) hs is ((l0, is0) :: fs) n
    have g2 := s_leave2 (is := v.view) (l0 := .inlineTable) (is0 := is ++ [mk .inlineKey (k.view .variable ++ [.tok [61] .assign])]) (l1 := l0) (is1 := is0) (fs := fs) (n := 0) (o := o)
      (vs := [.tok [125] .bracket]) (hits_fieldEnd (t := t) hu post) rfl (by simp)
    have := g1.trans g2
    simpa [Fields.view, mk] using this
  | .more b0 k b a v r f, hk, post, hs, is, l0, is0, fs, n => by
    obtain ⟨h1, h2, h3, h4, h5, h6, h7⟩ := hk
    have e1 : (Fields.more b0 k b a v r f).text ++ post = b0 ++ (k.text ++ (b ++ 61 :: (a ++ (v.text ++ (r ++ 44 :: (f.text ++ post)))))) := by simp [Fields.text]
    rw [e1] at hs ⊢
    obtain ⟨o, g1⟩ := field_go hu h1 h2 h3 h4 h6 (v := v) (fun hf is fs n o => val_go hu v h5 (.inr (.inr rfl)) (blank_ws h6) ⟨44, _, rfl, by simp⟩ hf is fs n o) hs is ((l0, is0) :: fs) n
    have g2 := s_leave (is := v.view) (l0 := .inlineTable) (is0 := is ++ [mk .inlineKey (k.view .variable ++ [.tok [61] .assign])]) (fs := (l0, is0) :: fs) (n := 0) (o := o)
      (vs := [.tok [44] .separator]) (hits_fieldComma (t := t) hu (f.text ++ post)) rfl (by simp)
    have hs' : f.text ++ post <:+ t := by
      refine List.IsSuffix.trans ?_ hs
      have : b0 ++ (k.text ++ (b ++ 61 :: (a ++ (v.text ++ (r ++ 44 :: (f.text ++ post)))))) = (b0 ++ (k.text ++ (b ++ 61 :: (a ++ (v.text ++ (r ++ [44])))))) ++ (f.text ++ post) := by simp
      rw [this]
      exact List.suffix_append _ _
    have g3 := fields_go hu f h7 post hs' (is ++ [mk .inlineKey (k.view .variable ++ [.tok [61] .assign])] ++ [mk .inlineValue (v.view ++ [.tok [44] .separator])]) l0 is0 fs 0
    have := (g1.trans g2).trans g3
    simpa [Fields.view, mk] using this
end

end Parce.Toml
