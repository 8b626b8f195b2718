import Verif.Lemmas.CssArgs
import Verif.Lemmas.IniVal
/-!
# Declarations in CSS texts
-/
namespace Parce.CssL
open Parce.Json (Uni str)
variable {Q K : Type} {u : Uni} {k : Words} {f : Funcs Q K}

theorem stops_ascii (hu : u.Ascii) {c : Nat} {rest : List Nat} (hc : c < 128)
    (h : ((48 ≤ c && c ≤ 57) || (65 ≤ c && c ≤ 90) || c == 95 || (97 ≤ c && c ≤ 122) || c == 45 || c == 92) = false) : Stops u (c :: rest) := by
  intro d hd
  obtain rfl : c = d := Option.some.inj hd
  simp only [Bool.or_eq_false_iff] at h
  refine ⟨?_, ?_⟩
  · unfold IsName
    rw [hu.word c hc]
    simp only [h.1.1, Bool.or_self, Bool.false_eq_true, false_or]
    have := h.1.2
    simpa using this
  · have := h.2
    simpa using this

theorem ws_stops (hu : u.Ascii) {c : Nat} (h : IsWs c) {rest : List Nat} : Stops u (c :: rest) := by
  refine stops_ascii hu (isWs_lt h) ?_
  unfold IsWs at h
  rcases h with rfl | rfl | rfl | rfl | rfl <;> decide

theorem stops_blanks (hu : u.Ascii) {bs : Blanks} (hb : Bok bs) {rest : List Nat} (h : Stops u rest) : Stops u (btext bs ++ rest) := by
  cases bs with
  | nil => exact h
  | cons b bs =>
    cases b with
    | ws c => exact ws_stops hu (hb (.ws c) (by simp))
    | comment w => exact stops_ascii hu (c := 47) (by decide) (by decide)

theorem not_space (hu : u.Ascii) {c : Nat} {rest : List Nat} (hc : c < 128) (h : ((9 ≤ c && c ≤ 13) || (28 ≤ c && c ≤ 32)) = false) :
    ∀ d, (c :: rest).head? = some d → u.space d = false := by
  intro d hd
  obtain rfl : c = d := Option.some.inj hd
  rw [hu.space c hc]
  exact h

/-- `rule` and `atrule_block`. -/
def blockLex (l : CL) : Prop := l = .rule ∨ l = .atruleBlock

theorem blockLex_blank {l : CL} (h : blockLex l) : blankLex l := by
  rcases h with rfl | rfl
  · exact ⟨Or.inl (by simp [gapLex]), 5, rfl⟩
  · exact ⟨Or.inl (by simp [gapLex]), 5, rfl⟩

theorem plain_property (w : List Nat) : plain (propertyAct k w) = true := by
  unfold propertyAct
  split <;> rfl

theorem misses_property {rest : List Nat} (hs : Stops u rest) : Misses u k .property rest := by
  refine misses_of ?_
  intro r hr
  simp only [rules, identRules, List.mem_cons, List.not_mem_nil, or_false] at hr
  rcases hr with rfl | rfl
  · exact pfail_escape hs.not_escape
  · exact pfail_name hs

theorem property_name (w : List Nat) : methOf k f .property [.tok w (propertyAct k w)] = .text w := by
  have h1 : propertyAct k w ≠ .escape := by unfold propertyAct; split <;> decide
  have h2 : isDelimiter (propertyAct k w) = false := by unfold propertyAct; split <;> rfl
  simp only [methOf, identText, identToken_tok h1 h2]

theorem go_property (hu : u.Ascii) {l : CL} (hl : blockLex l) {w post : List Nat} (hw : Ident u w) (hs : Stops u post) (hp : post ≠ [])
    {is : List (Itm Q K)} {fs : List (Fr Q K)} {n : Nat} {o : Bool} :
    Go u k f ⟨w ++ post, (l, is) :: fs, n, o⟩ ⟨post, (.declaration, [.item .property (.text w)]) :: (l, is) :: fs, 0, false⟩ := by
  have h1 : (rules u k l)[2]? = some (ruleOf (namePat u) (propertyAct k) (some ⟨0, [.declaration] ++ [.property]⟩)) := by
    rcases hl with rfl | rfl <;> rfl
  have h2 : ∀ c < 128, startChar c = true → onlyAt l 2 [] c = true := by
    rcases hl with rfl | rfl <;> decide +kernel
  have s1 := s_consume (f := f) (is := is) (fs := fs) (n := n) (o := o) (hits_name hu 2 [] hw hs h1 h2 (by simp)) rfl (plain_property w)
  have s2 := s1.trans (s_pop (misses_property hs) hp)
  rw [done_ok _ (by decide) (by rfl), property_name] at s2
  simpa using s2

/-- What a declaration stands for. -/
def Decl.value (k : Words) (f : Funcs Q K) (d : Decl) : CV Q K := .list [.text d.name, .list (d.entry k f).2]

/-- The items for a declaration, when a semicolon follows or not. -/
def Decl.items (k : Words) (f : Funcs Q K) (d : Decl) (semi : Bool) : List (Itm Q K) :=
  .item .declaration (d.value k f) ::
    match d.important with
    | none => []
    | some g => bitems g ++ if semi then [.tok [59] .delimiter] else []

theorem filter_blanks (bs : Blanks) : (bitems bs : List (Itm Q K)).filter notColon = bitems bs := by
  refine List.filter_eq_self.2 ?_
  intro i hi
  simp only [bitems, List.mem_flatMap] at hi
  obtain ⟨b, _, hb⟩ := hi
  cases b with
  | ws c => simp [Blank.items] at hb
  | comment w =>
    simp only [Blank.items, List.mem_singleton] at hb
    subst hb
    rfl

theorem Arg.filter (a : Arg) {b : Bool} {rest : List Nat} (h : a.ok u k false b rest) : (a.items k f).filter notColon = a.items k f := by
  cases a with
  | num w un =>
    have hw : NumText w := by
      cases un <;> simp only [Arg.ok] at h
      · exact h.1
      · exact h
      · exact h.1
    have hn : ∀ (is : List (Itm Q K)), (.tok w .number :: is : List (Itm Q K)).filter notColon = .tok w .number :: is.filter notColon := by
      intro is
      obtain ⟨c, r, rfl, _, h2⟩ := hw.first
      have h3 : c ≠ 58 ∧ c ≠ 59 := by unfold IsDigit at h2; omega
      rw [List.filter_cons_of_pos]
      simp [notColon, h3.1, h3.2]
    cases un <;> simp only [Arg.items, numItems, hn] <;> rfl
  | color w => simp [Arg.items, notColon, Json.str]
  | op c =>
    simp only [Arg.ok] at h
    have h3 : c ≠ 58 ∧ c ≠ 59 := by omega
    simp [Arg.items, notColon, h3.1, h3.2]
  | gap bs => exact filter_blanks bs
  | ident w => simp [Arg.items, Arg.vals, notColon]
  | func n as => simp [Arg.items, Arg.vals, notColon]
  | url w => rfl
  | str w => rfl
  | comma => rfl

theorem Args.filter : ∀ (as : Args) {b : Bool} {rest : List Nat}, as.ok u k false b rest → (as.items k f).filter notColon = as.items k f
  | .nil, _, _, _ => rfl
  | .cons a as, b, rest, h => by
    simp only [Args.ok] at h
    rw [Args.items, List.filter_append, a.filter h.1, as.filter h.2]

/-- The declaration is read. -/
theorem declaration_eq (d : Decl) {rest : List Nat} (h : d.args.ok u k false false rest) {tail : List (Itm Q K)} {vs : List (CV Q K)}
    (ht : NoUnit (tail.filter notColon)) (hv : commonLoop f .any (tail.filter notColon) = vs) (hf : failed tail = false) :
    done (method k f) .declaration (([.item .property (.text d.name)] ++ bitems d.g ++ [.tok [58] .delimiter] ++ d.args.items k f) ++ tail) =
      [.item .declaration (.list [.text d.name, .list (d.args.vals k f ++ vs)])] := by
  have h1 : failed (([.item .property (.text d.name)] ++ bitems d.g ++ [.tok [58] .delimiter] ++ d.args.items k f) ++ tail) = false := by
    simp only [failed_append, failed_blanks, d.args.not_failed, hf]
    rfl
  rw [done_ok _ (by decide) h1]
  simp only [methOf, List.cons_append, List.nil_append, declaration, if_true, common]
  have h2 : (bitems d.g ++ (.tok [58] .delimiter : Itm Q K) :: (d.args.items k f ++ tail)).filter notColon =
      bitems d.g ++ (d.args.items k f ++ tail.filter notColon) := by
    rw [List.filter_append, filter_blanks, List.filter_cons_of_neg (by simp [notColon]), List.filter_append, d.args.filter h]
  simp only [List.append_assoc, List.cons_append, List.nil_append] at *
  rw [h2, loop_blanks, d.args.loop h ht, hv]

theorem best_important {post : List Nat} (hu : u.Ascii) (h : ∀ c, post.head? = some c → u.word c = false) :
    PBest (.cat (chr "!important") (.bound u.word)) (str "!important") post := by
  intro t p ht
  have h1 : Best t (chr "!important") p (p + (str "!important").length) := best_str _ ht
  refine h1.cat (best_test ?_)
  have hpl : (str "!important").length = 10 := rfl
  rw [hpl]
  have hg : t[p + 10]? = post.head? := drop_head (p := p + 10) (drop_add ht)
  have hb : t[p + 9]? = some 116 := by
    have : t.drop (p + 9) = [116] ++ post := by rw [← List.drop_drop, ht]; rfl
    exact drop_get this
  have hw : u.word 116 = true := by rw [hu.word 116 (by decide)]; decide
  have he : ((post.head?.map u.word).getD false) = false := by
    cases hh : post.head? with
    | none => rfl
    | some c => exact h c hh
  rw [hg, he, show p + 10 - 1 = p + 9 by omega, hb]
  simp [hw]

theorem head_append {w r r' : List Nat} (h : r.head? = r'.head?) : (w ++ r).head? = (w ++ r').head? := by
  cases w with
  | nil => exact h
  | cons => rfl

theorem stops_head {r r' : List Nat} (h : r.head? = r'.head?) (hs : Stops u r) : Stops u r' := fun c hc => hs c (h.trans hc)

mutual
/-- Of what follows, only the first character matters. -/
theorem Arg.ok_head {wide : Bool} : ∀ (a : Arg) {b : Bool} {r r' : List Nat} (_ : r.head? = r'.head?) (_ : a.ok u k wide b r), a.ok u k wide b r'
  | .ident w, b, r, r', h, ho => by
    simp only [Arg.ok] at ho ⊢
    exact ⟨ho.1, stops_head h ho.2.1, by rw [← h]; exact ho.2.2.1, ho.2.2.2⟩
  | .num w .none, b, r, r', h, ho => by
    simp only [Arg.ok] at ho ⊢
    rw [← h]
    exact ⟨ho.1, stops_head h ho.2.1, ho.2.2⟩
  | .num w .percent, b, r, r', h, ho => by
    simp only [Arg.ok] at ho ⊢
    exact ho
  | .num w (.word x), b, r, r', h, ho => by
    simp only [Arg.ok] at ho ⊢
    rw [← h]
    exact ⟨ho.1, ho.2.1, ho.2.2.1, stops_head h ho.2.2.2.1, ho.2.2.2.2⟩
  | .color w, b, r, r', h, ho => by
    simp only [Arg.ok] at ho ⊢
    exact ⟨ho.1, ho.2.1, stops_head h ho.2.2⟩
  | .func n as, b, r, r', h, ho => by
    simp only [Arg.ok] at ho ⊢
    exact ⟨ho.1, ho.2.1, as.ok_head (r := 41 :: r) rfl ho.2.2⟩
  | .url w, b, r, r', h, ho => by
    simp only [Arg.ok] at ho ⊢
    exact ho
  | .str w, b, r, r', h, ho => by
    simp only [Arg.ok] at ho ⊢
    exact ho
  | .comma, b, r, r', h, ho => by
    simp only [Arg.ok]
  | .op c, b, r, r', h, ho => by
    simp only [Arg.ok] at ho ⊢
    rw [← h]
    exact ho
  | .gap bs, b, r, r', h, ho => by
    simp only [Arg.ok] at ho ⊢
    rw [← h]
    exact ho
theorem Args.ok_head {wide : Bool} : ∀ (as : Args) {b : Bool} {r r' : List Nat} (_ : r.head? = r'.head?) (_ : as.ok u k wide b r), as.ok u k wide b r'
  | .nil, _, _, _, _, _ => by simp only [Args.ok]
  | .cons a as, b, r, r', h, ho => by
    simp only [Args.ok] at ho ⊢
    exact ⟨a.ok_head (head_append h) ho.1, as.ok_head h ho.2⟩
end

/-- What follows a declaration. -/
inductive DEnd where
  | semi
  | close

def DEnd.char : DEnd → Nat
  | .semi => 59
  | .close => 125

def DEnd.isSemi : DEnd → Bool
  | .semi => true
  | .close => false

/-- The text after a declaration: the semicolon is taken. -/
def DEnd.next : DEnd → List Nat → List Nat
  | .semi, rest => rest
  | .close, rest => 125 :: rest

theorem NoUnit.blanks_nil (g : Blanks) : NoUnit (bitems g : List (Itm Q K)) := by
  have := noUnit_blanks (Q := Q) (K := K) g noUnit_nil
  simpa using this

theorem Decl.go (hu : u.Ascii) (hd : ∀ c, u.digit c = true → u.word c = true) {l : CL} (hl : blockLex l) (d : Decl) (e : DEnd) {rest : List Nat}
    (ho : d.ok u k false [e.char])
    {is : List (Itm Q K)} {fs : List (Fr Q K)} {n : Nat} {o : Bool} :
    ∃ o', Go u k f ⟨d.text ++ e.char :: rest, (l, is) :: fs, n, o⟩ ⟨e.next rest, (l, is ++ d.items k f e.isSemi) :: fs, 0, o'⟩ := by
  obtain ⟨h1, h2, h3, h4⟩ := ho
  have hargs := d.args.ok_head (r := d.bang ++ [e.char]) (r' := d.bang ++ e.char :: rest) (head_append rfl) h3
  have hcolon : Stops u (58 :: (d.args.text ++ (d.bang ++ e.char :: rest))) := stops_ascii hu (by decide) (by decide)
  have s1 := go_property (k := k) (f := f) (is := is) (fs := fs) (n := n) (o := o) hu hl (post := btext d.g ++ (58 :: (d.args.text ++ (d.bang ++ e.char :: rest)))) h1
    (stops_blanks hu h2 hcolon) (by simp)
  have s2 := s1.trans (go_blanks hu (l := .declaration) ⟨Or.inr ⟨13, rfl⟩, 5, rfl⟩ d.g h2 (not_space hu (by decide) (by decide)))
  have s3 := s2.trans (s_tok (w := [58]) (hits hu (l := .declaration) (c := 58) (w := []) (post := d.args.text ++ (d.bang ++ e.char :: rest))
      (r := rule (chr ":") .delimiter) (a := .delimiter) 0 [] rfl (fun _ => rfl)
        (by decide) (by decide +kernel) (by simp) (pbest_str [58] _)))
  obtain ⟨n', o', hn, s4⟩ := d.args.go (f := f) hu hd (l := .declaration) rfl (by simp) (rest := d.bang ++ e.char :: rest) (by simp) hargs
    (is := [.item .property (.text d.name)] ++ bitems d.g ++ [.tok [58] .delimiter]) (fs := (l, is) :: fs) (n := 0) (o := true)
  obtain rfl : n' = 0 := by omega
  have s5 := s3.trans s4
  have htext : d.text ++ e.char :: rest = d.name ++ (btext d.g ++ (58 :: (d.args.text ++ (d.bang ++ e.char :: rest)))) := by
    simp [Decl.text, str]
  rw [htext]
  cases hi : d.important with
  | none =>
    have hb : d.bang = [] := by simp [Decl.bang, hi]
    have hv : d.value k f = .list [.text d.name, .list (d.args.vals k f ++ [])] := by simp [Decl.value, Decl.entry, hi]
    have hit : ∀ b, d.items k f b = [.item .declaration (d.value k f)] := by simp [Decl.items, hi]
    rw [hb] at s5 hargs ⊢
    simp only [List.nil_append] at s5 hargs ⊢
    cases e with
    | semi =>
      refine ⟨true, ?_⟩
      have s6 := s5.trans (s_target (w := [59]) (tg := ⟨1, []⟩) (hits hu (l := .declaration) (c := 59) (w := []) (post := rest)
        (r := rule (chr ";") .delimiter (some ⟨1, []⟩)) (a := .delimiter) 1 [] rfl (fun _ => rfl)
        (by decide) (by decide +kernel) (by simp) (pbest_str [59] _)) (by simp))
      simp only [closeN, closeF] at s6
      rw [declaration_eq d hargs (vs := []) (by rintro _ _ ⟨⟩) rfl rfl] at s6
      rw [hit, hv]
      exact s6
    | close =>
      refine ⟨false, ?_⟩
      have s6 := s5.trans (s_pop (misses hu (l := .declaration) (k := k) (c := 125) (post := rest) (by decide) (by decide +kernel)) (by simp))
      have := declaration_eq (f := f) d hargs (tail := []) (vs := []) (by rintro _ _ ⟨⟩) rfl rfl
      rw [List.append_nil] at this
      rw [this] at s6
      rw [hit, hv]
      exact s6
  | some g =>
    have hg := h4 g hi
    have hb : d.bang = str "!important" ++ btext g := by simp [Decl.bang, hi]
    have hv : d.value k f = .list [.text d.name, .list (d.args.vals k f ++ [.text (str "!important")])] := by simp [Decl.value, Decl.entry, hi]
    rw [hb] at s5 hargs ⊢
    rw [List.append_assoc] at s5 hargs ⊢
    have hst : Stops u (e.char :: rest) := by cases e <;> exact stops_ascii hu (by decide) (by decide)
    have s6 := s5.trans (s_target (tg := ⟨1, []⟩) (hits hu (l := .declaration) (c := 33) (w := str "important") (post := btext g ++ e.char :: rest)
        (r := rule (.cat (chr "!important") (.bound u.word)) .keyword (some ⟨1, []⟩)) (a := .keyword) 2 [] rfl (fun _ => rfl)
        (by decide) (by decide +kernel) (by simp) (best_important hu (fun c hc => by
          have := (stops_blanks hu hg hst c hc).1
          unfold IsName at this
          simp only [not_or] at this
          simpa using this.1))) (by simp))
    simp only [closeN, closeF] at s6
    rw [declaration_eq d hargs (vs := [.text (str "!important")]) (by rintro _ _ ⟨⟩) rfl rfl] at s6
    simp only [List.reverse_nil, List.map_nil, List.nil_append, List.length_nil] at s6
    have s7 := s6.trans (go_blanks hu (blockLex_blank hl) g hg (rest := e.char :: rest) (by
      cases e <;> exact not_space hu (by decide) (by decide)))
    have hfr : bfresh g 0 = 0 := by unfold bfresh; split <;> rfl
    rw [hfr] at s7
    cases e with
    | semi =>
      refine ⟨true, ?_⟩
      have h3 : (rules u k l)[12]? = some (rule (.set fun c => (str ":,;@%!").contains c) .delimiter) := by
        rcases hl with rfl | rfl <;> rfl
      have h4 : onlyAt l 12 [] 59 = true := by rcases hl with rfl | rfl <;> decide +kernel
      have s8 := s7.trans (s_tok (w := [59]) (hits hu (c := 59) (w := []) (post := rest) 12 [] h3 (fun _ => rfl) (by decide) h4 (by simp) (pbest_set rfl)))
      have hit : d.items k f true = .item .declaration (d.value k f) :: (bitems g ++ [.tok [59] .delimiter]) := by simp [Decl.items, hi]
      simp only [DEnd.isSemi, hit, hv]
      simpa [DEnd.char, DEnd.next] using s8
    | close =>
      have hit : d.items k f false = .item .declaration (d.value k f) :: bitems g := by simp [Decl.items, hi]
      simp only [DEnd.isSemi, hit, hv]
      exact ⟨_, by simpa [DEnd.char, DEnd.next] using s7⟩

/-! ### Blocks -/

/-- The items for the declarations. -/
def Block.items (k : Words) (f : Funcs Q K) : Block → List (Itm Q K)
  | .nil g => bitems g
  | .last g d => bitems g ++ d.items k f false
  | .semi g b => bitems g ++ [.tok [59] .delimiter] ++ b.items k f
  | .cons g d b => bitems g ++ d.items k f true ++ b.items k f

theorem Block.go (hu : u.Ascii) (hd : ∀ c, u.digit c = true → u.word c = true) {l : CL} (hl : blockLex l) {fs : List (Fr Q K)} {rest : List Nat} (b : Block) : b.ok u k false →
    ∀ {is : List (Itm Q K)} {n : Nat} {o : Bool}, ∃ n' o', Go u k f ⟨b.text ++ 125 :: rest, (l, is) :: fs, n, o⟩ ⟨125 :: rest, (l, is ++ b.items k f) :: fs, n', o'⟩ := by
  have hgo := fun (g : Blanks) (hg : Bok g) (c : Nat) (r : List Nat) (is : List (Itm Q K)) (n : Nat) (o : Bool) (hc : c < 128)
      (h : ((9 ≤ c && c ≤ 13) || (28 ≤ c && c ≤ 32)) = false) =>
    go_blanks (f := f) (k := k) (is := is) (fs := fs) (n := n) (o := o) hu (blockLex_blank hl) g hg (not_space hu (rest := r) hc h)
  have hname : ∀ (d : Decl), Ident u d.name → ∀ r, ∃ c r', d.text ++ r = c :: r' ∧ c < 128 ∧ ((9 ≤ c && c ≤ 13) || (28 ≤ c && c ≤ 32)) = false := by
    intro d h r
    obtain ⟨c, r', he, h1, h2⟩ := h.first
    refine ⟨c, r' ++ btext d.g ++ str ":" ++ d.args.text ++ d.bang ++ r, by simp [Decl.text, he], h1, ?_⟩
    have : ∀ c < 128, startChar c = true → ((9 ≤ c && c ≤ 13) || (28 ≤ c && c ≤ 32)) = false := by decide
    exact this c h1 h2
  induction b with
  | nil g =>
    intro ho is n o
    simp only [Block.ok] at ho
    exact ⟨_, _, hgo g ho 125 rest is n o (by decide) (by decide)⟩
  | last g d =>
    intro ho is n o
    simp only [Block.ok] at ho
    obtain ⟨c, r', he, h1, h2⟩ := hname d ho.2.1 (125 :: rest)
    have s1 := hgo g ho.1 c r' is n o h1 h2
    rw [← he] at s1
    obtain ⟨o', s2⟩ := Decl.go (f := f) (fs := fs) (is := is ++ bitems g) (n := bfresh g n) (o := o || !g.isEmpty) hu hd hl d .close (rest := rest) ho.2
    refine ⟨0, o', ?_⟩
    have := s1.trans s2
    simpa [Block.text, Block.items, DEnd.next, DEnd.isSemi] using this
  | semi g b ih =>
    intro ho is n o
    simp only [Block.ok] at ho
    have s1 := hgo g ho.1 59 (b.text ++ 125 :: rest) is n o (by decide) (by decide)
    have h3 : (rules u k l)[12]? = some (rule (.set fun c => (str ":,;@%!").contains c) .delimiter) := by
      rcases hl with rfl | rfl <;> rfl
    have h4 : onlyAt l 12 [] 59 = true := by rcases hl with rfl | rfl <;> decide +kernel
    have s2 := s1.trans (s_tok (w := [59]) (hits hu (c := 59) (w := []) (post := b.text ++ 125 :: rest) 12 [] h3 (fun _ => rfl) (by decide) h4 (by simp) (pbest_set rfl)))
    obtain ⟨n', o', s3⟩ := ih ho.2 (is := is ++ bitems g ++ [.tok [59] .delimiter]) (n := 0) (o := true)
    refine ⟨n', o', ?_⟩
    have := s2.trans s3
    simpa [Block.text, Block.items, str] using this
  | cons g d b ih =>
    intro ho is n o
    simp only [Block.ok] at ho
    obtain ⟨c, r', he, h1, h2⟩ := hname d ho.2.1.1 (59 :: (b.text ++ 125 :: rest))
    have s1 := hgo g ho.1 c r' is n o h1 h2
    rw [← he] at s1
    obtain ⟨o', s2⟩ := Decl.go (f := f) (fs := fs) (is := is ++ bitems g) (n := bfresh g n) (o := o || !g.isEmpty) hu hd hl d .semi (rest := b.text ++ 125 :: rest) ho.2.1
    obtain ⟨n', o'', s3⟩ := ih ho.2.2 (is := is ++ bitems g ++ d.items k f true) (n := 0) (o := o')
    refine ⟨n', o'', ?_⟩
    have := s1.trans (s2.trans s3)
    simpa [Block.text, Block.items, str] using this

theorem Decl.not_failed (d : Decl) (b : Bool) : failed (d.items k f b) = false := by
  unfold Decl.items
  split
  · rfl
  · show failed (bitems _ ++ _) = false
    rw [failed_append, failed_blanks]
    cases b <;> rfl

theorem Block.not_failed (b : Block) : failed (b.items k f) = false := by
  induction b with
  | nil g => exact failed_blanks g
  | last g d => simp only [Block.items, failed_append, failed_blanks, d.not_failed]; rfl
  | semi g b ih => simp only [Block.items, failed_append, failed_blanks, ih]; rfl
  | cons g d b ih => simp only [Block.items, failed_append, failed_blanks, d.not_failed, ih]; rfl

/-- The step of `inline`. -/
def inlineStep (d : List (List Nat × List (CV Q K))) (i : Itm Q K) : List (List Nat × List (CV Q K)) :=
  match i with
  | .item .declaration (.list [.text p, .list vs]) => Ini.dictSet d p vs
  | _ => d

theorem inline_eq (is : List (Itm Q K)) : inline is = .dict (is.foldl inlineStep []) := rfl

theorem fold_blanks (g : Blanks) (d : List (List Nat × List (CV Q K))) : (bitems g).foldl inlineStep d = d := by
  induction g generalizing d with
  | nil => rfl
  | cons b g ih =>
    cases b with
    | ws c => exact ih d
    | comment w => exact ih d

theorem Decl.fold (x : Decl) (b : Bool) (d : List (List Nat × List (CV Q K))) :
    (x.items k f b).foldl inlineStep d = Ini.dictSet d x.name (x.entry k f).2 := by
  unfold Decl.items
  rw [List.foldl_cons]
  have h : inlineStep d (.item .declaration (x.value k f)) = Ini.dictSet d x.name (x.entry k f).2 := rfl
  rw [h]
  split
  · rfl
  · rw [List.foldl_append, fold_blanks]
    cases b <;> rfl

theorem Block.fold (b : Block) : ∀ d : List (List Nat × List (CV Q K)), (b.items k f).foldl inlineStep d = Ini.setAll d (b.entries k f) := by
  induction b with
  | nil g => intro d; exact fold_blanks g d
  | last g x => intro d; simp only [Block.items, List.foldl_append, fold_blanks, x.fold]; rfl
  | semi g b ih => intro d; simp only [Block.items, List.foldl_append, fold_blanks, ih]; rfl
  | cons g x b ih => intro d; simp only [Block.items, List.foldl_append, fold_blanks, x.fold, ih]; rfl

theorem Block.inline_eq (b : Block) : inline (b.items k f ++ [.tok [125] .bracket]) = b.value k f := by
  rw [CssL.inline_eq, List.foldl_append, b.fold, Ini.setAll_eq _ _ (by simp)]
  simp [inlineStep, Block.value]

end Parce.CssL
