import Verif.Lemmas.JsonVal
/-!
# From a JSON text to its value
-/
namespace Parce.Json
variable {u : Uni} {t : List Nat} {F : Type}

theorem right_ws {ws post : List Nat} (hws : Ws ws) (h : Right post) : Right (ws ++ post) := by
  intro c hc
  cases ws with
  | nil => exact h c hc
  | cons x ws =>
    simp only [List.cons_append, List.head?_cons, Option.some.injEq] at hc
    subst hc
    have := hws x (List.mem_cons_self ..)
    omega

theorem right_comma (post : List Nat) : Right (str "," ++ post) := by
  intro c hc
  have : c = 44 := by simpa [eq_comm] using (show some 44 = some c from hc)
  omega

theorem right_rbrack (post : List Nat) : Right (str "]" ++ post) := by
  intro c hc
  have : c = 93 := by simpa [eq_comm] using (show some 93 = some c from hc)
  omega

theorem right_rbrace (post : List Nat) : Right (str "}" ++ post) := by
  intro c hc
  have : c = 125 := by simpa [eq_comm] using (show some 125 = some c from hc)
  omega

/-- From before a value to after it. -/
def ValGoes (u : Uni) (t : List Nat) (f : Floats F) (v : JV) (w : List Nat) : Prop :=
  ∀ (l : JL) (K : List (Node Nat JL JA)) (up : List (Frame Nat JL JA)) (p : Nat) (ws post : List Nat) (o : Bool),
    HasVal l → Ws ws → t.drop p = ws ++ (w ++ post) → Left u t p → Right post →
    ∃ ns, vals f ns = [v.py f] ∧
      JGoes u t ⟨p, ⟨⟨l, K⟩, up⟩, o⟩ ⟨p + ws.length + w.length, ⟨⟨l, K ++ ns⟩, up⟩, true⟩

/-- From inside an array to after it. -/
def ElemsGoes (u : Uni) (t : List Nat) (f : Floats F) (l : List JV) (w : List Nat) : Prop :=
  ∀ (l' : JL) (K K' : List (Node Nat JL JA)) (up : List (Frame Nat JL JA)) (p : Nat) (post : List Nat),
    t.drop p = w ++ (str "]" ++ post) → Left u t p →
    ∃ ns, vals f ns = pyL f l ∧
      JGoes u t ⟨p, ⟨⟨.array, K⟩, ⟨l', K'⟩ :: up⟩, true⟩ ⟨p + w.length + 1, ⟨⟨l', K' ++ [.ctx .array (K ++ ns)]⟩, up⟩, true⟩

/-- From inside an object to after it. -/
def MembersGoes (u : Uni) (t : List Nat) (f : Floats F) (l : List (List Nat × JV)) (w : List Nat) : Prop :=
  ∀ (l' : JL) (K K' : List (Node Nat JL JA)) (up : List (Frame Nat JL JA)) (p : Nat) (post : List Nat),
    t.drop p = w ++ (str "}" ++ post) →
    ∃ ns, its f ns = flat (pyO f l) ∧
      JGoes u t ⟨p, ⟨⟨.object, K⟩, ⟨l', K'⟩ :: up⟩, true⟩ ⟨p + w.length + 1, ⟨⟨l', K' ++ [.ctx .object (K ++ ns)]⟩, up⟩, true⟩

theorem gcast {lang : Lang Nat JL JA RM} {x y y' : Sit Nat JL JA} (h : Goes lang t x y) (e : y = y') : Goes lang t x y' := e ▸ h

theorem goes_constant (hu : u.Ascii) (f : Floats F) (v : JV) (w : List Nat) (hw : w = str "true" ∨ w = str "false" ∨ w = str "null")
    (hv : constVal w = v.py f) : ValGoes u t f v w := by
  intro l K up p ws post o hl hws ht hle hr
  refine ⟨[.tok ⟨p + ws.length, w, .constant, none⟩], by rw [vals_constant, hv], ?_⟩
  exact jgo (B := ⟨⟨l, K⟩, up⟩) (hit_constant hu hl hws hw ht (left_ws hu hle hws ht) hr) (by simp)

theorem goes_number (hu : u.Ascii) (f : Floats F) (w : List Nat) (hw : Num w) : ValGoes u t f (.num w) w := by
  intro l K up p ws post o hl hws ht hle hr
  refine ⟨[.tok ⟨p + ws.length, w, .number, none⟩], by rw [vals_number]; rfl, ?_⟩
  exact jgo (B := ⟨⟨l, K⟩, up⟩) (hit_number hu hl hws hw ht hr) (by simp)

theorem len1 (s : String) (h : (str s).length = 1) (p : Nat) : p + (str s).length = p + 1 := by rw [h]

theorem goes_str (hu : u.Ascii) (f : Floats F) (s w : List Nat) (hc : Chars false s w) :
    ValGoes u t f (.str s) (str "\"" ++ w ++ str "\"") := by
  intro l K up p ws post o hl hws ht hle hr
  rw [List.append_assoc, List.append_assoc] at ht
  have h1 := jtarget (B := ⟨⟨l, K⟩, up⟩) (o := o) (hit_quote hu hl hws ht) (by simp) (by simp)
  have h2 : t.drop (p + ws.length + 1) = w ++ (str "\"" ++ post) := drop_add (w := str "\"") (drop_add ht)
  obtain ⟨ts, h3, h4⟩ := goes_string hu w.length s w (Nat.le_refl _) hc [] (K ++ [.tok ⟨p + ws.length, str "\"", .start, none⟩]) l up
    (p + ws.length + 1) post true h2
  refine ⟨[.tok ⟨p + ws.length, str "\"", .start, none⟩, .ctx .string ((ts ++ [(⟨p + ws.length + 1 + w.length, str "\"", .stop, none⟩ : TokN Nat JA)]).map .tok)], ?_, ?_⟩
  · rw [show ∀ a b : Node Nat JL JA, [a, b] = [a] ++ [b] from fun _ _ => rfl, vals_append, vals_start, vals_ctx, List.nil_append]
    simp only [method]
    rw [stringOf_toks f ts _ rfl, h3]; rfl
  · refine gcast (Goes.trans h1 h4) ?_
    have : (str "\"" ++ w ++ str "\"").length = w.length + 2 := by simp [str]
    rw [this]
    simp only [List.nil_append, List.append_assoc, List.singleton_append]
    congr 1
    omega

theorem goes_arr (hu : u.Ascii) (f : Floats F) (v : List JV) (w : List Nat) (h : ElemsGoes u t f v w) :
    ValGoes u t f (.arr v) (str "[" ++ w ++ str "]") := by
  intro l K up p ws post o hl hws ht hle hr
  rw [List.append_assoc, List.append_assoc] at ht
  have h1 := jtarget (B := ⟨⟨l, K⟩, up⟩) (o := o) (hit_lbrack hu hl hws ht) (by simp) (by simp)
  have h0 := drop_add ht
  have h2 : t.drop (p + ws.length + 1) = w ++ (str "]" ++ post) := drop_add (w := str "[") h0
  obtain ⟨ns, h3, h4⟩ := h l [] (K ++ [.tok ⟨p + ws.length, str "[", .delimiter, none⟩]) up (p + ws.length + 1) post h2
    (left_after hu (c := 91) h0 (by simp))
  refine ⟨[.tok ⟨p + ws.length, str "[", .delimiter, none⟩, .ctx .array ns], ?_, ?_⟩
  · rw [show ∀ a b : Node Nat JL JA, [a, b] = [a] ++ [b] from fun _ _ => rfl, vals_append, vals_delim, vals_ctx, List.nil_append]
    simp only [method]
    rw [show valuesOf f (itmL (env f) false ns) = vals f ns from rfl, h3]; rfl
  · refine gcast (Goes.trans h1 h4) ?_
    have : (str "[" ++ w ++ str "]").length = w.length + 2 := by simp [str]
    rw [this]
    simp only [List.nil_append, List.append_assoc, List.singleton_append]
    congr 1
    omega

theorem goes_obj (hu : u.Ascii) (f : Floats F) (v : List (List Nat × JV)) (w : List Nat) (h : MembersGoes u t f v w) :
    ValGoes u t f (.obj v) (str "{" ++ w ++ str "}") := by
  intro l K up p ws post o hl hws ht hle hr
  rw [List.append_assoc, List.append_assoc] at ht
  have h1 := jtarget (B := ⟨⟨l, K⟩, up⟩) (o := o) (hit_lbrace hu hl hws ht) (by simp) (by simp)
  have h0 := drop_add ht
  have h2 : t.drop (p + ws.length + 1) = w ++ (str "}" ++ post) := drop_add (w := str "{") h0
  obtain ⟨ns, h3, h4⟩ := h l [] (K ++ [.tok ⟨p + ws.length, str "{", .delimiter, none⟩]) up (p + ws.length + 1) post h2
  refine ⟨[.tok ⟨p + ws.length, str "{", .delimiter, none⟩, .ctx .object ns], ?_, ?_⟩
  · rw [show ∀ a b : Node Nat JL JA, [a, b] = [a] ++ [b] from fun _ _ => rfl, vals_append, vals_delim, vals_ctx, List.nil_append]
    simp only [method]
    rw [object_value f v ns h3]
  · refine gcast (Goes.trans h1 h4) ?_
    have : (str "{" ++ w ++ str "}").length = w.length + 2 := by simp [str]
    rw [this]
    simp only [List.nil_append, List.append_assoc, List.singleton_append]
    congr 1
    omega

theorem goes_elems0 (hu : u.Ascii) (f : Floats F) (w : List Nat) (hw : Ws w) : ElemsGoes u t f [] w := by
  intro l' K K' up p post ht hle
  refine ⟨[.tok ⟨p + w.length, str "]", .delimiter, none⟩], rfl, ?_⟩
  exact jtarget (B := ⟨⟨.array, K⟩, ⟨l', K'⟩ :: up⟩) (hit_rbrack hu hw ht) (by simp) (by simp)

theorem goes_elems1 (hu : u.Ascii) (f : Floats F) (v : JV) (a w b : List Nat) (ha : Ws a) (hb : Ws b) (h : ValGoes u t f v w) :
    ElemsGoes u t f [v] (a ++ w ++ b) := by
  intro l' K K' up p post ht hle
  rw [List.append_assoc, List.append_assoc, ] at ht
  obtain ⟨ns, h1, h2⟩ := h .array K (⟨l', K'⟩ :: up) p a (b ++ (str "]" ++ post)) true (Or.inr (Or.inr rfl)) ha ht hle
    (right_ws hb (right_rbrack post))
  have h3 := drop_add (drop_add ht)
  have h4 := jtarget (B := ⟨⟨.array, K ++ ns⟩, ⟨l', K'⟩ :: up⟩) (o := true) (hit_rbrack hu hb h3) (by simp) (by simp)
  refine ⟨ns ++ [.tok ⟨p + a.length + w.length + b.length, str "]", .delimiter, none⟩], ?_, ?_⟩
  · rw [vals_append, vals_delim, h1]; rfl
  · refine gcast (Goes.trans h2 h4) ?_
    simp only [List.length_append, BState.addTok, BState.target, List.foldl_nil, BState.leaves, BState.leave, List.append_assoc]
    congr 1
    show _ + 1 = _
    omega

theorem goes_elems (hu : u.Ascii) (f : Floats F) (v : JV) (vs : List JV) (a w b ts : List Nat) (ha : Ws a) (hb : Ws b) (h : ValGoes u t f v w)
    (hs : ElemsGoes u t f vs ts) : ElemsGoes u t f (v :: vs) (a ++ w ++ b ++ str "," ++ ts) := by
  intro l' K K' up p post ht hle
  have ht : t.drop p = a ++ (w ++ (b ++ (str "," ++ (ts ++ (str "]" ++ post))))) := by rw [ht]; simp only [List.append_assoc]
  obtain ⟨ns, h1, h2⟩ := h .array K (⟨l', K'⟩ :: up) p a (b ++ (str "," ++ (ts ++ (str "]" ++ post)))) true (Or.inr (Or.inr rfl)) ha ht hle
    (right_ws hb (right_comma _))
  have h3 := drop_add (drop_add ht)
  have h3' := drop_add h3
  have h4 := jgo (B := ⟨⟨.array, K ++ ns⟩, ⟨l', K'⟩ :: up⟩) (o := true) (hit_comma_array hu hb h3) (by simp)
  obtain ⟨ns', h5, h6⟩ := hs l' (K ++ ns ++ [.tok ⟨p + a.length + w.length + b.length, str ",", .delimiter, none⟩]) K' up
    (p + a.length + w.length + b.length + 1) post (drop_add h3') (left_after hu (c := 44) h3' (by simp))
  refine ⟨ns ++ [.tok ⟨p + a.length + w.length + b.length, str ",", .delimiter, none⟩] ++ ns', ?_, ?_⟩
  · rw [vals_append, vals_append, vals_delim, h1, h5]; rfl
  · refine gcast (Goes.trans h2 (Goes.trans h4 h6)) ?_
    have : (str ",").length = 1 := rfl
    simp only [List.length_append, List.append_assoc, this]
    congr 1
    omega

theorem goes_members0 (hu : u.Ascii) (f : Floats F) (w : List Nat) (hw : Ws w) : MembersGoes u t f [] w := by
  intro l' K K' up p post ht
  refine ⟨[.tok ⟨p + w.length, str "}", .delimiter, none⟩], rfl, ?_⟩
  refine Goes.trans (goes_ws hu hw ht ?_ rfl) (jtarget (B := ⟨⟨.object, K⟩, ⟨l', K'⟩ :: up⟩) (o := true) (hit_rbrace_object hu (drop_add ht)) (by simp) (by simp))
  intro c hc
  have : c = 125 := by simpa [eq_comm] using (show some 125 = some c from hc)
  subst this
  rw [hu.space _ (by decide)]; rfl

/-- From inside an object to the value of the next name, and after it. -/
theorem goes_member (hu : u.Ascii) (f : Floats F) (k kt : List Nat) (v : JV) (a b c w : List Nat) (ha : Ws a) (hk : Chars false k kt) (hb : Ws b)
    (hc : Ws c) (hv : ValGoes u t f v w) (K : List (Node Nat JL JA)) (up : List (Frame Nat JL JA)) (p : Nat) (post : List Nat)
    (ht : t.drop p = a ++ (str "\"" ++ (kt ++ (str "\"" ++ (b ++ (str ":" ++ (c ++ (w ++ post)))))))) (hr : Right post) :
    ∃ n ns, (∀ rest, vals f rest = [] → its f [n, .ctx .value (ns ++ rest)] = [(.key, .str k), (.value, v.py f)]) ∧
      JGoes u t ⟨p, ⟨⟨.object, K⟩, up⟩, true⟩ ⟨p + a.length + 1 + kt.length + 1 + b.length + 1 + c.length + w.length,
        ⟨⟨.value, ns⟩, ⟨.object, K ++ [n]⟩ :: up⟩, true⟩ := by
  have s1 := goes_ws (t := t) hu ha ht (fun c hc => by
    have : c = 34 := by simpa [eq_comm] using (show some 34 = some c from hc)
    subst this
    rw [hu.space _ (by decide)]; rfl) (B := ⟨⟨.object, K⟩, up⟩) rfl
  have t2 := drop_add ht
  have s2 := goes_key (t := t) hu t2 (K := K) (up := up)
  have s3 := jtarget (B := ⟨⟨.key, []⟩, ⟨.object, K⟩ :: up⟩) (o := false) (hit_key (t := t) (ws := []) hu (by simp [Ws]) t2) (by simp) (by simp)
  have t3 : t.drop (p + a.length + 1) = _ := drop_add t2
  obtain ⟨ts, h3, s4⟩ := goes_string (t := t) hu kt.length k kt (Nat.le_refl _) hk [] [.tok ⟨p + a.length, str "\"", .start, none⟩] .key
    (⟨.object, K⟩ :: up) (p + a.length + 1) _ true t3
  have t4 : t.drop (p + a.length + 1 + kt.length + 1) = _ := drop_add (drop_add t3)
  have s5 := jtarget (B := ⟨⟨.key, [.tok ⟨p + a.length, str "\"", .start, none⟩] ++ [.ctx .string ([] ++ (ts ++ [(⟨p + a.length + 1 + kt.length, str "\"", .stop, none⟩ : TokN Nat JA)]).map .tok)]⟩, ⟨.object, K⟩ :: up⟩)
    (o := true) (hit_colon (t := t) hu hb t4) (by simp) (by simp)
  have t5 := drop_add t4
  have t6 : t.drop (p + a.length + 1 + kt.length + 1 + b.length + 1) = _ := drop_add t5
  let n : Node Nat JL JA := .ctx .key ([.tok ⟨p + a.length, str "\"", .start, none⟩] ++ [.ctx .string ([] ++ (ts ++ [(⟨p + a.length + 1 + kt.length, str "\"", .stop, none⟩ : TokN Nat JA)]).map .tok)] ++ [.tok ⟨p + a.length + 1 + kt.length + 1 + b.length, str ":", .delimiter, none⟩])
  obtain ⟨ns, h6, s6⟩ := hv .value [] (⟨.object, K ++ [n]⟩ :: up) _ c post true (Or.inr (Or.inl rfl)) hc t6 (left_after hu (c := 58) t5 (by simp)) hr
  refine ⟨n, ns, fun rest hrest => ?_, Goes.trans s1 (Goes.trans s2 (Goes.trans s3 (Goes.trans s4 (Goes.trans s5 s6))))⟩
  rw [show ∀ a b : Node Nat JL JA, [a, b] = [a] ++ [b] from fun _ _ => rfl, its_append, its_ctx, its_ctx]
  simp only [method, firstOf]
  rw [show valuesOf f (itmL (env f) false (ns ++ rest)) = vals f (ns ++ rest) from rfl, vals_append, hrest, h6]
  simp only [List.nil_append, itmL_append, List.singleton_append, List.cons_append, List.append_nil, List.head?_cons, orNone]
  congr 2
  show stringOf (itmL (env f) false ((ts ++ [(⟨p + a.length + 1 + kt.length, str "\"", .stop, none⟩ : TokN Nat JA)]).map .tok)) = _
  rw [stringOf_toks f ts _ rfl, h3]

theorem goes_members1 (hu : u.Ascii) (f : Floats F) (k kt : List Nat) (v : JV) (a b c w d : List Nat) (ha : Ws a) (hk : Chars false k kt)
    (hb : Ws b) (hc : Ws c) (hv : ValGoes u t f v w) (hd : Ws d) :
    MembersGoes u t f [(k, v)] (a ++ str "\"" ++ kt ++ str "\"" ++ b ++ str ":" ++ c ++ w ++ d) := by
  intro l' K K' up p post ht
  have ht : t.drop p = a ++ (str "\"" ++ (kt ++ (str "\"" ++ (b ++ (str ":" ++ (c ++ (w ++ (d ++ (str "}" ++ post))))))))) := by
    rw [ht]; simp only [List.append_assoc]
  obtain ⟨n, ns, h1, h2⟩ := goes_member hu f k kt v a b c w ha hk hb hc hv K (⟨l', K'⟩ :: up) p _ ht (right_ws hd (right_rbrace post))
  have t2 : t.drop (p + a.length + 1 + kt.length + 1 + b.length + 1 + c.length + w.length) = _ :=
    drop_add (drop_add (drop_add (drop_add (drop_add (drop_add (drop_add (drop_add ht)))))))
  have h3 := jtarget (B := ⟨⟨.value, ns⟩, ⟨.object, K ++ [n]⟩ :: ⟨l', K'⟩ :: up⟩) (o := true) (hit_rbrace_value hu hd t2) (by simp) (by simp)
  refine ⟨[n, .ctx .value (ns ++ [.tok ⟨p + a.length + 1 + kt.length + 1 + b.length + 1 + c.length + w.length + d.length, str "}", .delimiter, none⟩])], h1 _ (vals_delim f _ _), gcast (Goes.trans h2 h3) ?_⟩
  have e1 : (str "\"").length = 1 := rfl
  have e2 : (str ":").length = 1 := rfl
  have e3 : (str "}").length = 1 := rfl
  simp only [List.length_append, e1, e2, e3, BState.addTok, BState.target, List.foldl_nil, BState.leaves, BState.leave, List.append_assoc,
    List.cons_append, List.nil_append]
  congr 1
  omega

theorem goes_members (hu : u.Ascii) (f : Floats F) (k kt : List Nat) (v : JV) (l : List (List Nat × JV)) (a b c w d ts : List Nat) (ha : Ws a)
    (hk : Chars false k kt) (hb : Ws b) (hc : Ws c) (hv : ValGoes u t f v w) (hd : Ws d) (hs : MembersGoes u t f l ts) :
    MembersGoes u t f ((k, v) :: l) (a ++ str "\"" ++ kt ++ str "\"" ++ b ++ str ":" ++ c ++ w ++ d ++ str "," ++ ts) := by
  intro l' K K' up p post ht
  have ht : t.drop p = a ++ (str "\"" ++ (kt ++ (str "\"" ++ (b ++ (str ":" ++ (c ++ (w ++ (d ++ (str "," ++ (ts ++ (str "}" ++ post))))))))))) := by
    rw [ht]; simp only [List.append_assoc]
  obtain ⟨n, ns, h1, h2⟩ := goes_member hu f k kt v a b c w ha hk hb hc hv K (⟨l', K'⟩ :: up) p _ ht (right_ws hd (right_comma _))
  have t2 : t.drop (p + a.length + 1 + kt.length + 1 + b.length + 1 + c.length + w.length) = _ :=
    drop_add (drop_add (drop_add (drop_add (drop_add (drop_add (drop_add (drop_add ht)))))))
  have h3 := jtarget (B := ⟨⟨.value, ns⟩, ⟨.object, K ++ [n]⟩ :: ⟨l', K'⟩ :: up⟩) (o := true) (hit_comma_value hu hd t2) (by simp) (by simp)
  have t3 := drop_add (drop_add t2)
  obtain ⟨ns', h4, h5⟩ := hs l' (K ++ [n] ++ [.ctx .value (ns ++ [.tok ⟨p + a.length + 1 + kt.length + 1 + b.length + 1 + c.length + w.length + d.length, str ",", .delimiter, none⟩])]) K' up _ post t3
  refine ⟨[n, .ctx .value (ns ++ [.tok ⟨p + a.length + 1 + kt.length + 1 + b.length + 1 + c.length + w.length + d.length, str ",", .delimiter, none⟩])] ++ ns', ?_, gcast (Goes.trans h2 (Goes.trans h3 h5)) ?_⟩
  · rw [its_append, h1 _ (vals_delim f _ _), h4]; rfl
  · have e1 : (str "\"").length = 1 := rfl
    have e2 : (str ":").length = 1 := rfl
    have e3 : (str ",").length = 1 := rfl
    simp only [List.length_append, e1, e2, e3, List.append_assoc, List.cons_append, List.nil_append]
    congr 1
    omega

mutual
theorem val_goes (hu : u.Ascii) (f : Floats F) : ∀ {v : JV} {w : List Nat}, Val false v w → ValGoes u t f v w
  | _, _, .null => goes_constant hu f _ _ (Or.inr (Or.inr rfl)) rfl
  | _, _, .true => goes_constant hu f _ _ (Or.inl rfl) rfl
  | _, _, .false => goes_constant hu f _ _ (Or.inr (Or.inl rfl)) rfl
  | _, _, .num h => goes_number hu f _ h
  | _, _, .str h => goes_str hu f _ _ h
  | _, _, .arr0 h => goes_arr hu f _ _ (goes_elems0 hu f _ h)
  | _, _, .arr h => goes_arr hu f _ _ (elems_goes hu f h)
  | _, _, .obj0 h => goes_obj hu f _ _ (goes_members0 hu f _ h)
  | _, _, .obj h => goes_obj hu f _ _ (members_goes hu f h)
theorem elems_goes (hu : u.Ascii) (f : Floats F) : ∀ {l : List JV} {w : List Nat}, Elems false l w → ElemsGoes u t f l w
  | _, _, .one h1 h2 h3 => goes_elems1 hu f _ _ _ _ h1 h3 (val_goes hu f h2)
  | _, _, .cons h1 h2 h3 h4 => goes_elems hu f _ _ _ _ _ _ h1 h3 (val_goes hu f h2) (elems_goes hu f h4)
theorem members_goes (hu : u.Ascii) (f : Floats F) : ∀ {l : List (List Nat × JV)} {w : List Nat}, Members false l w → MembersGoes u t f l w
  | _, _, .one h1 h2 h3 h4 h5 h6 => goes_members1 hu f _ _ _ _ _ _ _ _ h1 h2 h3 h4 (val_goes hu f h5) h6
  | _, _, .cons h1 h2 h3 h4 h5 h6 h7 => goes_members hu f _ _ _ _ _ _ _ _ _ _ h1 h2 h3 h4 (val_goes hu f h5) h6 (members_goes hu f h7)
end

end Parce.Json
