import Verif.Model.Rebuild
/-!
# Changes that arrive while a new tree is built

Model of the parts of `TreeBuilder.build_new_tree` that `Model/Rebuild.lean` leaves out: the changes that are seen in the loop
over the events (`treebuilder.py:327-356`), the restart with a part of the new tree (`277-287`), and of the loop of
`process` (`541-586`). `peek` is not modelled.
-/
namespace Parce.RB
variable {α L A ρ : Type} [DecidableEq α] [DecidableEq L] [DecidableEq A]

/-- The loop `while start:` of `get_prepared_lexer` with `new_tree=True`, `treebuilderutil.py:146-180`; other than in
    `prepLoop` the lexer is never started at the beginning (`163-164`). -/
def prepLoopNew (lang : Lang α L A ρ) (lexFuel : Nat) (root : Node α L A) (t : List α) (last : Leaf α A) :
    (fuel : Nat) → List (Leaf α A) → Option (Prepared α L A)
  | 0, _ => none
  | _ + 1, [] => none
  | fuel + 1, c :: rest =>
    let r := seek (startOk lang root) c rest 10
    if r.2.2 = true ∧ r.1.2.pos ≠ 0 then
      let ev := lexAll lang t lexFuel (LState.start (ancLexs root r.1.1) r.1.2.pos)
      match compareEvents (eventsWithTokens root r.1 last) ev.1 none with
      | some (evs, prev) => some ⟨evs, ev.2, prev⟩
      | none => prepLoopNew lang lexFuel root t last fuel r.2.1
    else none

/-- `get_prepared_lexer(tree, text, start, True)`, `treebuilderutil.py:119-180`. -/
def preparedNew (lang : Lang α L A ρ) (lexFuel : Nat) (root : Node α L A) (t : List α) (start : Nat) : Option (Prepared α L A) :=
  match findBefore start (sizeL root.kids + 1) [] root.kids with
  | none => none
  | some tok =>
    let goBack := back root tok.1
    let r : Option (Leaf α A × List (Leaf α A)) :=
      if inGroup tok.2 then
        match goBack.dropWhile (fun q => inGroup q.2) with
        | [] => none
        | q :: rest => some (q, rest)
      else some (tok, goBack)
    match r with
    | none => none
    | some (last, goBack) =>
      if start = 0 then none
      else prepLoopNew lang lexFuel root t last (goBack.length + 1) goBack

/-- What remains of the new tree, and the context that is current then: `del p[i+1:]` for all ancestors of the token, and
    `del context[-1]`, `treebuilder.py:283-285`. `none` does not occur for the path of a token. -/
def cutOff : Node α L A → List Nat → List (Frame α L A) → Option (BState α L A)
  | .ctx l cs, [i], up => some ⟨⟨l, cs.take i⟩, up⟩
  | .ctx l cs, i :: j :: p, up => (cs[i]?).bind (fun n => cutOff n (j :: p) (⟨l, cs.take i⟩ :: up))
  | _, _, _ => none
termination_by structural _ p => p

/-- Why the loop over the events ended. -/
inductive LoopEnd (α A : Type) where
  /-- there are no more events -/
  | done
  /-- this token of the tail is reached -/
  | tail (q : Leaf α A)
  /-- changes were seen; what is left of the tail -/
  | change (rest : List (Leaf α A))

/-- The loop over the events, `treebuilder.py:305-356`, as `buildLoop`; there are changes after `k` more events. -/
def buildLoopTo (lang : Lang α L A ρ) (root : Node α L A) (offset : Int) :
    Nat → List (Leaf α A) → List (Event α L A) → BState α L A → BState α L A × LoopEnd α A
  | _, _, [], b => (b, .done)
  | k, tail, e :: es, b =>
    let b1 := b.target e.target
    let go (tail : List (Leaf α A)) : BState α L A × LoopEnd α A :=
      match k with
      | 0 => (b.event e, .change tail)
      | k + 1 => buildLoopTo lang root offset k tail es (b.event e)
    match e.lexemes.head? with
    | none => go tail
    | some lx =>
      let pos : Int := (lx.pos : Int) - offset
      match tail.dropWhile (fun q => decide ((q.2.pos : Int) < pos)) with
      | [] => go []
      | q :: rest =>
        if pos = q.2.pos ∧ lx.text = q.2.text ∧ lx.act = q.2.act ∧
            b1.cur.lex :: b1.up.map (·.lex) = ancLexs root q.1 ∧
            (b1.cur.kids ≠ [] ∨ lang.consume b1.cur.lex = false) then (b1, .tail q)
        else go (q :: rest)
termination_by structural _ _ x => x

/-- The local variables of `build_new_tree` at the start of the loop `while True:`, `treebuilder.py:275`. -/
structure Build (α L A : Type) where
  text : List α
  root : L
  start : Nat
  lowest : Nat
  offset : Int
  tail : List (Leaf α A)
  tree : Option (BState α L A)

/-- What is known when the loop over the events starts, `treebuilder.py:276-303`: the events, the lexicons open at
    their end, the tree under construction, and `lowest_start`. -/
structure Begun (α L A : Type) where
  events : List (Event α L A)
  final : List L
  tree : BState α L A
  lowest : Nat

/-- The part `treebuilder.py:277-287`: a part of the new tree is used again. In all of what follows `keep` is true for the
    code as it is; for `keep` false this part is left out. -/
def reuse (lang : Lang α L A ρ) (keep : Bool) (lexFuel : Nat) (s : Build α L A) : Option (Begun α L A) :=
  if keep then
    s.tree.bind (fun b =>
      (preparedNew lang lexFuel b.close s.text s.start).bind (fun pr =>
        (cutOff b.close pr.prev.path []).map (fun b => ⟨pr.events, pr.final, b, s.lowest⟩)))
  else none

/-- The part `treebuilder.py:289-303`. -/
def begin (lang : Lang α L A ρ) (lexFuel : Nat) (old : Option L) (cs : List (Node α L A)) (s : Build α L A) : Begun α L A :=
  match old.bind (fun l => prepared lang lexFuel l cs s.text (min s.lowest s.start)) with
  | some pr => ⟨pr.events, pr.final, chain (ancLexs (.ctx (old.getD s.root) cs) pr.prev.path) s.root,
      min s.lowest ((pr.prev.toks.getLast?.map TokN.stop).getD 0)⟩
  | none => let ev := lexAll lang s.text lexFuel (LState.start [s.root] 0)
    ⟨ev.1, ev.2, ⟨⟨s.root, []⟩, []⟩, 0⟩

/-- The variables after changes were seen, `treebuilder.py:331-356`, for a root lexicon that is not None. -/
def Build.seen (s : Build α L A) (b : Begun α L A) (tree : BState α L A) (tail : List (Leaf α A)) (c : Change α L) : Build α L A :=
  match c.root with
  | some (some l) => ⟨c.text, l, 0, b.lowest, s.offset, [], none⟩
  | _ =>
    if tail = [] ∨ c.text.length ≤ c.start + c.added then ⟨c.text, s.root, c.start, b.lowest, s.offset, [], some tree⟩
    else
      let offset := s.offset + ((c.added : Int) - c.removed)
      ⟨c.text, s.root, c.start, b.lowest, offset,
        tail.dropWhile (fun q => decide ((q.2.pos : Int) < (c.start : Int) + c.added - offset)), some tree⟩

/-- The loop `while True:`, `treebuilder.py:275-371`. The schedule tells which (merged) changes are seen, and after how many
    further events. The second result is what is left of the schedule. The first result is `none` if there is no root
    lexicon (`337`): then the tree is empty. -/
def buildFrom (lang : Lang α L A ρ) (keep : Bool) (lexFuel : Nat) (old : Option L) (cs : List (Node α L A)) :
    List (Nat × Change α L) → Build α L A → Option (BuildResult α L A) × List (Nat × Change α L)
  | sched, s =>
    let b := match reuse lang keep lexFuel s with
      | some b => b
      | none => begin lang lexFuel old cs s
    let root : Node α L A := .ctx (old.getD s.root) cs
    match sched with
    | [] =>
      match buildLoop lang root s.offset s.tail b.events b.tree with
      | (b', some q) => (some ⟨b'.close, b.lowest, q.2.pos, s.offset, none⟩, [])
      | (b', none) => (some ⟨b'.close, b.lowest, s.text.length, 0, some b.final.reverse.tail⟩, [])
    | (k, c) :: sched =>
      match buildLoopTo lang root s.offset k s.tail b.events b.tree with
      | (b', .tail q) => (some ⟨b'.close, b.lowest, q.2.pos, s.offset, none⟩, (k, c) :: sched)
      | (b', .done) => (some ⟨b'.close, b.lowest, s.text.length, 0, some b.final.reverse.tail⟩, (k, c) :: sched)
      | (b', .change tail) =>
        if c.root = some none then (none, sched)
        else buildFrom lang keep lexFuel old cs sched (s.seen b b' tail c)
termination_by structural x => x

/-- The beginning of `build_new_tree`, `treebuilder.py:245-274`. -/
def buildFirst (lang : Lang α L A ρ) (old : Option L) (cs : List (Node α L A)) (root : L) (t : List α)
    (start removed added : Nat) : Build α L A :=
  ⟨t, root, start, start, (added : Int) - (removed : Int),
    if start + added < t.length then tailGen lang (old.getD root) cs (start + removed) else [], none⟩

/-- `build_new_tree`, `treebuilder.py:218-372`, with changes arriving meanwhile. -/
def buildNewTo (lang : Lang α L A ρ) (keep : Bool) (lexFuel : Nat) (tree : TTree α L A) (c : Change α L) (sched : List (Nat × Change α L)) :
    Option (BuildResult α L A) × List (Nat × Change α L) :=
  match c.root with
  | some none => (none, sched)
  | some (some l) => buildFrom lang keep lexFuel tree.lex tree.kids sched (buildFirst lang tree.lex tree.kids l c.text 0 0 c.text.length)
  | none =>
    match tree.lex with
    | none => (none, sched)
    | some l => buildFrom lang keep lexFuel (some l) tree.kids sched (buildFirst lang (some l) tree.kids l c.text c.start c.removed c.added)

/-- The loop of `process`, `treebuilder.py:563-576`: the first number of the schedule is not used, as that change starts a
    round; changes that are not seen by the loop of the build start the next round. -/
def processTo (lang : Lang α L A ρ) (keep : Bool) (same : L → L → Bool) (lexFuel : Nat) :
    (fuel : Nat) → List (Nat × Change α L) → TTree α L A → Option (TTree α L A)
  | _, [], tree => some tree
  | 0, _ :: _, _ => none
  | fuel + 1, (_, c) :: sched, tree =>
    let r := buildNewTo lang keep lexFuel tree c sched
    (replaceTree same tree r.1).bind (fun tree => processTo lang keep same lexFuel fuel r.2 tree)

end Parce.RB
