import Verif.Lemmas.ActionMore
import Verif.Props.Rebuild
import Verif.Props.Csv
/-!
# C80: actions for groups, and actions that start another lexer
-/
namespace Parce
variable {α L A : Type} [DecidableEq α]

/-- **C80.** With `bygroup`, `using`, `skip` and actions that are evaluated for the text, all lexemes are non-empty slices
    of the text, one after the other, if the groups of the patterns follow each other. Lexers for parts of the
    text may be nested to any depth. -/
theorem C80_ordered (D : ActDef α L A) (hD : D.Suits) (fuel : List α → Nat) (depth : Nat) (t : List α) (stack : List L) (hs : stack ≠ [])
    (pos : Nat) (hp : pos ≤ t.length) (n : Nat) :
    Within t pos t.length (lexemes (lexRun (actLang D fuel depth) t n (LState.start stack pos)).1) :=
  C19_lexemes_ordered _ t (fun l => by rw [act_ld]; exact compile_ok _ _ _) (act_within D hD fuel depth t) stack hs pos hp n

/-- **C80.** The lexemes of one token lie in the text of the token. -/
theorem C80_inside (D : ActDef α L A) (hD : D.Suits) (fuel : List α → Nat) (depth : Nat) (t : List α) :
    ExpandsWithin (actLang D fuel depth) t := act_within D hD fuel depth t

/-- **C80.** If the pattern is a row of groups, and there is an action for each of them, all of the text of the match is in
    lexemes. -/
theorem C80_covers (D : ActDef α L A) (l : L) (t : List α) (ps ps' : PS RM) (tok : Tok α L (Act α L A) RM)
    (hps : PSOK t (compile D.noAct (D.rules l) (D.dflt l)) ps)
    (h : parseNext D.noAct (compile D.noAct (D.rules l) (D.dflt l)) t ps = some (tok, ps')) (ht : tok.text ≠ []) (hm : tok.mtch ≠ none)
    (hr : ∀ r ∈ D.rules l, ∀ w g, ∃ (pats : List (Pat α)) (as : List A), r.pat = Pat.groupRow 1 pats ∧ pats.length = as.length ∧
      (∀ a ∈ pats, a.NoGroups) ∧ (r.out w g).1 = .groups (as.map .plain))
    (sub : L → List α → List (Lexeme α (Act α L A))) :
    ∃ ls, tokLexemes sub tok = some ls ∧ ls.flatMap (·.text) = tok.text := by
  rcases compile_tok_caps hps h ht with ⟨m, r, c, gs, e1, e2, e3, e4, e5, e6, e7⟩ | ⟨e1, _⟩
  · obtain ⟨pats, as, h1, h2, h3, h4⟩ := hr r e2 tok.text gs
    rw [h1] at e3
    exact row_covers h2 h3 e1 e3 e4 e6 (e7.trans h4)
  · exact absurd e1 hm

/-- **C80** (partial: an action `using` may only be for a group that takes part in every match, see
    `C80_optional_violated`). No exception is raised for a token. -/
theorem C80_no_exception_partial (D : ActDef α L A) (hD : D.Suits) (l : L) (t : List α) (ps ps' : PS RM) (tok : Tok α L (Act α L A) RM)
    (hps : PSOK t (compile D.noAct (D.rules l) (D.dflt l)) ps)
    (h : parseNext D.noAct (compile D.noAct (D.rules l) (D.dflt l)) t ps = some (tok, ps')) (ht : tok.text ≠ [])
    (hr : ∀ r ∈ D.rules l, ∀ w g as, (r.out w g).1 = .groups as → ∀ j a, as[j]? = some a → a.NoLexer ∨ r.pat.Takes (1 + j))
    (sub : L → List α → List (Lexeme α (Act α L A))) : tokLexemes sub tok ≠ none := by
  rcases compile_tok_caps hps h ht with ⟨m, r, c, gs, e1, e2, e3, e4, e5, e6, e7⟩ | ⟨_, f, w, e1, e2⟩
  · have hs := hD.rules l r e2 tok.text gs
    have hj := hr r e2 tok.text gs
    rw [← e7] at hs hj
    unfold tokLexemes
    cases ha : tok.act with
    | plain a => exact one_some (.plain a) _ _
    | skip => exact one_some .skip _ _
    | lexicon l => exact one_some (.lexicon l) _ _
    | dyn f => rw [ha] at hs; exact one_some hs _ _
    | groups as =>
      rw [ha] at hs
      simp only [filterAct, e1]
      refine filterGroups_some as 1 hs.2.2 (fun j a hja => ?_)
      rcases hj as ha j a hja with h | h
      · exact Or.inl h
      · right
        obtain ⟨x, h1, h2⟩ := run_takes t (1 + j) r.pat _ _ _ e3 (Or.inl h) hs.1
        rw [e4]
        intro hn
        simp only [groupOf, Option.map_eq_none_iff, List.find?_eq_none] at hn
        exact hn (x.1, x.2.1 - tok.pos, x.2.2 - tok.pos) (List.mem_map.2 ⟨x, h1, rfl⟩) (by simp [h2])
  · exact one_some (e2 ▸ hD.dflt l f e1 w) _ _

/-- **C80.** The requirements of the exact update of the tree (C33) are met if, beside what the patterns have to meet, the first group
    is at the start of the match, is not empty, and has an action that is not dynamic. -/
theorem C80_restartable (D : ActDef α L A) (hD : D.Suits) (fuel : List α → Nat) (depth : Nat)
    (hb : ∀ l, ∀ r ∈ D.rules l, r.pat.Behind 0) (hk : ∀ l, ∀ r ∈ D.rules l, r.pat.Known 9)
    (hr : ∀ l, ∀ r ∈ D.rules l, ∀ w g, (r.out w g).1.Begins r.pat) (hd : ∀ l f, D.dflt l = .action f → ∀ w, ∃ a, f w = .plain a) :
    RB.Restartable 9 (actLang D fuel depth) :=
  ⟨fun l => by rw [act_ld]; exact compile_ok _ _ _, fun l => by rw [act_ld]; exact compile_leftmost _ _ _,
    fun l => by rw [act_ld]; exact compile_behind _ _ _ (hb l), fun l => by rw [act_ld]; exact compile_ahead _ _ _ (hk l),
    act_within D hD fuel depth, act_moved D fuel depth, act_atStart D hD fuel depth hr hd⟩

/-- **C80.** Then updating the tree after an edit gives the tree of the new text. (Only lexemes with a plain action occur in the tree; the
    equality of actions may be any decision procedure.) -/
theorem C80_update [DecidableEq L] [DecidableEq (Act α L A)] (D : ActDef α L A) (hD : D.Suits) (fuel : List α → Nat) (depth : Nat)
    (hb : ∀ l, ∀ r ∈ D.rules l, r.pat.Behind 0) (hk : ∀ l, ∀ r ∈ D.rules l, r.pat.Known 9)
    (hr : ∀ l, ∀ r ∈ D.rules l, ∀ w g, (r.out w g).1.Begins r.pat) (hd : ∀ l f, D.dflt l = .action f → ∀ w, ∃ a, f w = .plain a)
    (same : L → L → Bool) (root : L) (hs : same root root = true) (t : List α) (e : RB.Edit α) (hfit : e.start + e.removed ≤ t.length)
    (n0 n1 : Nat) (h0 : RB.Finished (actLang D fuel depth) root t n0) (h1 : RB.Finished (actLang D fuel depth) root (RB.Edit.run t e) n1)
    (N : Nat) (hN : n1 + 1 ≤ N) :
    RB.rebuild (actLang D fuel depth) same N ⟨some root, (buildTree (actLang D fuel depth) root t 0 n0).kids⟩
      ⟨RB.Edit.run t e, none, e.start, e.removed, e.ins.length⟩ =
      some ⟨some root, (buildTree (actLang D fuel depth) root (RB.Edit.run t e) 0 n1).kids⟩ :=
  RB.C33_edit_partial _ (C80_restartable D hD fuel depth hb hk hr hd) same root hs t e hfit n0 n1 h0 h1 N hN

/-- **C80.** In particular the lexemes of every CSV text follow each other. -/
theorem C80_csv (sp : Nat → Bool) (t : List Nat) (n : Nat) :
    Within t 0 t.length (lexemes (lexRun (Csv.lang sp) t n (LState.start [.root] 0)).1) := by
  refine C19_lexemes_ordered _ t (fun l => compile_ok _ _ _) (grpLang_within _ _ _ _ _ _ ?_ t) _ (by simp) 0 (Nat.zero_le _) n
  intro l r hr w g as h
  cases l with
  | root => cases hr
  | record =>
    simp only [Csv.rules, List.mem_cons, List.not_mem_nil, or_false] at hr
    rcases hr with rfl | rfl | rfl | rfl
    · cases h
    · cases h
    · exact ⟨by simp [Csv.rule, Csv.openPat, Pat.Chain, Pat.NoGroups, Pat.opt, Pat.plus, Pat.chr], rfl⟩
    · cases h
  | string =>
    simp only [Csv.rules, List.mem_cons, List.not_mem_nil, or_false] at hr
    rcases hr with rfl | rfl
    · cases h
    · exact ⟨by simp [Csv.rule, Csv.closePat, Pat.Chain, Pat.NoGroups, Pat.opt, Pat.plus, Pat.chr], rfl⟩

/-! ## Violations and examples -/

private def chr (c : Char) : Pat Char := Pat.chr c

private def out (a : Act Char Nat Nat) : List Char → List (Nat × List Char) → Act Char Nat Nat × Option (Target Nat) := fun _ _ => (a, none)

/-- `(a)?b` with `bygroup(using(lexicon 1), 7)`. -/
private def optD : ActDef Char Nat Nat where
  rules
    | 0 => [⟨.cat (.opt (.grp 1 (chr 'a'))) (.grp 2 (chr 'b')), out (.groups [.lexicon 1, .plain 7])⟩]
    | _ => [⟨chr 'a', out (.plain 5)⟩]
  dflt _ := .skip
  consume _ := false
  noAct := .skip

private theorem opt_suits : optD.Suits := by
  refine ⟨fun l r hr w g => ?_, fun l f h => by cases h⟩
  match l with
  | 0 =>
    simp only [optD, List.mem_singleton] at hr
    subst hr
    refine ⟨by simp [Pat.Chain, Pat.opt, chr, Pat.chr, Pat.NoGroups], rfl, ?_⟩
    intro a ha
    simp only [List.mem_cons, List.not_mem_nil, or_false] at ha
    rcases ha with rfl | rfl
    · exact .lexicon 1
    · exact .plain 7
  | _ + 1 =>
    simp only [optD, List.mem_singleton] at hr
    subst hr
    exact .plain 5

/-- **C80** is violated: a group that did not take part in the match should give no lexemes, but `using` fails for it. -/
theorem C80_optional_violated : ∃ (D : ActDef Char Nat Nat) (t : List Char) (tok : Tok Char Nat (Act Char Nat Nat) RM) (ps' : PS RM),
    D.Suits ∧ parseNext D.noAct (compile D.noAct (D.rules 0) (D.dflt 0)) t (.at 0 false) = some (tok, ps') ∧ tok.text = ['b'] ∧
    ∀ sub, tokLexemes sub tok = none :=
  ⟨optD, ['b'], ⟨0, ['b'], some ⟨0, 1, ⟨0, [(2, 0, 1)]⟩⟩, .groups [.lexicon 1, .plain 7], none⟩, .at 1 false, opt_suits, rfl, rfl,
    fun _ => rfl⟩

/-- `(?:(a)|(b))*` with `bygroup(1, 2)`. -/
private def repD : ActDef Char Nat Nat where
  rules _ := [⟨.star (.alt (.grp 1 (chr 'a')) (.grp 2 (chr 'b'))), out (.groups [.plain 1, .plain 2])⟩]
  dflt _ := .skip
  consume _ := false
  noAct := .skip

/-- It is necessary that the groups follow each other: for a group in a repetition, the lexemes can be in the wrong order. -/
theorem C80_repeated : ¬ Within ['b', 'a'] 0 2 (lexemes (lexRun (actLang repD (fun _ => 0) 0) ['b', 'a'] 5 (LState.start [0] 0)).1) := by
  have h : lexemes (lexRun (actLang repD (fun _ => 0) 0) ['b', 'a'] 5 (LState.start [0] 0)).1 = [⟨1, ['a'], .plain 1⟩, ⟨0, ['b'], .plain 2⟩] := rfl
  rw [h]
  intro h
  have := h.2.2.2.2.1
  simp at this

/-- In a lexicon with default action 9, `(aa)=(b+)?` with `bygroup(1, select(...))`, where text of more than one character is lexed
    with lexicon 1. -/
private def keyD : ActDef Char Nat Nat where
  rules
    | 0 => [⟨.cat (.grp 1 (.cat (chr 'a') (chr 'a'))) (.cat (chr '=') (.opt (.grp 2 (.plus (chr 'b'))))),
        out (.groups [.plain 1, .dyn fun w _ => if (w.getD []).length ≤ 1 then [.plain 2] else [.lexicon 1]])⟩]
    | _ => [⟨chr 'b', out (.plain 5)⟩]
  dflt
    | 0 => .action fun _ => .plain 9
    | _ => .skip
  consume _ := false
  noAct := .skip

private theorem key_suits : keyD.Suits := by
  refine ⟨fun l r hr w g => ?_, fun l f h => ?_⟩
  · match l with
    | 0 =>
      simp only [keyD, List.mem_singleton] at hr
      subst hr
      refine ⟨by simp [Pat.Chain, Pat.opt, Pat.plus, chr, Pat.chr, Pat.NoGroups], rfl, ?_⟩
      intro a ha
      simp only [List.mem_cons, List.not_mem_nil, or_false] at ha
      rcases ha with rfl | rfl
      · exact .plain 1
      · refine .dyn _ (fun w g => by split <;> simp) (fun w g a ha => ?_)
        split at ha
        · rw [List.mem_singleton.1 ha]; exact .plain 2
        · rw [List.mem_singleton.1 ha]; exact .lexicon 1
    | _ + 1 =>
      simp only [keyD, List.mem_singleton] at hr
      subst hr
      exact .plain 5
  · match l with
    | 0 =>
      simp only [keyD, Dflt.action.injEq] at h
      subst h
      intro w
      exact .plain 9
    | _ + 1 => cases h

private theorem key_known : (∀ l, ∀ r ∈ keyD.rules l, r.pat.Behind 0) ∧ (∀ l, ∀ r ∈ keyD.rules l, r.pat.Known 9) ∧
    (∀ l, ∀ r ∈ keyD.rules l, ∀ w g, (r.out w g).1.Begins r.pat) ∧ (∀ l f, keyD.dflt l = .action f → ∀ w, ∃ a, f w = .plain a) := by
  refine ⟨fun l r hr => ?_, fun l r hr => ?_, fun l r hr w g => ?_, fun l f h w => ?_⟩
  · match l with
    | 0 => simp only [keyD, List.mem_singleton] at hr; subst hr; simp [Pat.Behind, Pat.opt, Pat.plus, chr, Pat.chr]
    | _ + 1 => simp only [keyD, List.mem_singleton] at hr; subst hr; simp [Pat.Behind, chr, Pat.chr]
  · match l with
    | 0 =>
      simp only [keyD, List.mem_singleton] at hr
      subst hr
      refine Or.inr ⟨⟨by simp [Pat.Fixed, chr, Pat.chr], 1, 8, rfl, by decide, by simp [Pat.Fixed, chr, Pat.chr]⟩, 2, 7, rfl, by decide,
        Or.inr ⟨by simp [Pat.Fixed, chr, Pat.chr], 1, 6, rfl, by decide, ?_⟩⟩
      simp [Pat.Known, Pat.opt, Pat.plus, chr, Pat.chr, Pat.always]
    | _ + 1 => simp only [keyD, List.mem_singleton] at hr; subst hr; simp [Pat.Known, chr, Pat.chr]
  · match l with
    | 0 =>
      simp only [keyD, List.mem_singleton] at hr
      subst hr
      refine ⟨_, _, rfl, ?_⟩
      intro t p q ⟨r, ⟨h1, _⟩, h2, _⟩
      omega
    | _ + 1 => simp only [keyD, List.mem_singleton] at hr; subst hr; trivial
  · match l with
    | 0 =>
      simp only [keyD, Dflt.action.injEq] at h
      subst h
      exact ⟨9, rfl⟩
    | _ + 1 => cases h

example : ∃ (D : ActDef Char Nat Nat) (t : List Char), D.Suits ∧ lexemes (lexRun (actLang D (fun w => w.length + 1) 1) t 9 (LState.start [0] 0)).1 =
    [⟨0, ['x'], .plain 9⟩, ⟨1, ['a', 'a'], .plain 1⟩, ⟨4, ['b'], .plain 5⟩, ⟨5, ['b'], .plain 5⟩, ⟨6, ['y'], .plain 9⟩] :=
  ⟨keyD, "xaa=bby".toList, key_suits, rfl⟩

/-- The language meets what the update asks for. -/
example : RB.Restartable 9 (actLang keyD (fun w => w.length + 1) 1) :=
  C80_restartable keyD key_suits _ 1 key_known.1 key_known.2.1 key_known.2.2.1 key_known.2.2.2

example : RB.Finished (actLang keyD (fun w => w.length + 1) 1) 0 "xaa=bby".toList 9 := by unfold RB.Finished; decide +kernel

/-- `(a)(b)` with an action for each group. -/
private def rowD : ActDef Char Nat Nat where
  rules _ := [⟨Pat.groupRow 1 [chr 'a', chr 'b'], out (.groups [.plain 1, .plain 2])⟩]
  dflt _ := .skip
  consume _ := false
  noAct := .skip

example : ∀ r ∈ rowD.rules 0, ∀ w g, ∃ (pats : List (Pat Char)) (as : List Nat), r.pat = Pat.groupRow 1 pats ∧ pats.length = as.length ∧
    (∀ a ∈ pats, a.NoGroups) ∧ (r.out w g).1 = .groups (as.map .plain) := by
  intro r hr w g
  simp only [rowD, List.mem_singleton] at hr
  subst hr
  exact ⟨[chr 'a', chr 'b'], [1, 2], rfl, rfl, by simp [chr, Pat.chr, Pat.NoGroups], rfl⟩

example : parseNext rowD.noAct (compile rowD.noAct (rowD.rules 0) (rowD.dflt 0)) ['a', 'b'] (.at 0 false) =
    some (⟨0, ['a', 'b'], some ⟨0, 2, ⟨0, [(2, 1, 2), (1, 0, 1)]⟩⟩, .groups [.plain 1, .plain 2], none⟩, .at 2 false) := rfl

/-- The hypothesis of `C80_no_exception_partial` for a `using` on a group that always takes part. -/
example : (Pat.cat (.grp 1 (chr 'a')) (.opt (.grp 2 (chr 'b')))).Takes 1 ∧ ¬ (Pat.cat (.grp 1 (chr 'a')) (.opt (.grp 2 (chr 'b')))).Takes 2 := by
  simp [Pat.Takes, Pat.opt, chr, Pat.chr]

end Parce
