import Verif.Model.Tree
/-!
# Model of TreeBuilder.build_new_tree and replace_tree, and of parce/treebuilderutil.py

What happens between a change of the text and the updated tree, when no other change arrives
meanwhile. (The part `treebuilder.py:327-356` of `build_new_tree` that handles changes arriving
during the build and the part `277-287` that reuses the new tree in that case are in
`Model/Interrupt.lean`; `peek` and the notifications are not modelled.)

Lexicons that are `==` in Python can be different objects (a lexicon and its derivates); equality
in the model is identity, and `same` is Python's `==`. Generators are modelled by the lists they
yield; in particular the lexer is run to its end (`fuel` bounds the number of its steps).
-/
namespace Parce.RB
variable {α L A ρ : Type}

/-- A token with its path. -/
abbrev Leaf (α A : Type) := List Nat × TokN α A

/-! ### Helpers of treebuilderutil.py -/

/-- The lexicons of the contexts at the path and above, innermost first
    (`[p.lexicon for p in token.ancestors()]` for the path of the parent). -/
def lexsAt : Node α L A → List Nat → List L
  | .tok _, _ => []
  | .ctx l _, [] => [l]
  | .ctx l cs, i :: p =>
    match cs[i]? with
    | none => [l]
    | some n => lexsAt n p ++ [l]

/-- The ancestors' lexicons of the token at a path. -/
def ancLexs (root : Node α L A) (path : List Nat) : List L := lexsAt root path.dropLast

/-- `token.is_first() and token.parent.lexicon.consume`. -/
def firstConsume (lang : Lang α L A ρ) (root : Node α L A) (path : List Nat) : Bool :=
  path.getLast? == some 0 && ((ancLexs root path).head?.map lang.consume).getD false

/-- `find_token_before`, `treebuilderutil.py:269-295`. -/
def findBefore (pos : Nat) : (fuel : Nat) → List Nat → List (Node α L A) → Option (Leaf α A)
  | 0, _, _ => none
  | fuel + 1, path, cs =>
    let i := bisect (nodeIs cs (fun n => !((n.firstTok.map (fun t => decide (pos < t.stop))).getD false)))
      cs.length 0 cs.length
    if i = 0 then none
    else
      match cs[i - 1]? with
      | none => none
      | some (.tok t) => some (path ++ [i - 1], t)
      | some (.ctx _ ds) => findBefore pos fuel (path ++ [i - 1]) ds

/-- `backward`, `treebuilderutil.py:309-316`, with `ancestors_with_index`, `298-306`. -/
def back (root : Node α L A) (path : List Nat) : List (Leaf α A) :=
  ((List.range path.length).reverse).flatMap (fun k =>
    let i := path[k]?.getD 0
    if i ≠ 0 then utilTokens true ((children false (path.take k) (root.kidsAt (path.take k))).take i) else [])

/-- The common part of two paths, and what follows in both. -/
def splitCommon : List Nat → List Nat → List Nat × List Nat × List Nat
  | i :: p, j :: q =>
    if i = j then
      let r := splitCommon p q
      (i :: r.1, r.2.1, r.2.2)
    else ([], i :: p, j :: q)
  | p, q => ([], p, q)

/-- `common_ancestor_with_trail(node, other)`, `treebuilderutil.py:319-338`. -/
def commonAncestor (node other : Leaf α A) : Option Rng :=
  if node.1 = other.1 then
    some ⟨node.1.dropLast, node.1.drop (node.1.length - 1), node.1.drop (node.1.length - 1)⟩
  else if node.2.pos < other.2.pos then
    let r := splitCommon node.1 other.1
    some ⟨r.1, r.2.1, r.2.2⟩
  else none

/-- The number of tokens from a token on that belong to its group, `treebuilderutil.py:222-228`;
    `ns` are the nodes after it. -/
def groupSize (t : TokN α A) (ns : List (Node α L A)) : Nat :=
  match t.group with
  | none => 1
  | some _ => min (groupLoop ns ns.length ns.length 0 + 2) (ns.length + 1)

/-- The tokens in a list of nodes. -/
def toksOf (ns : List (Node α L A)) : List (TokN α A) :=
  ns.filterMap (fun n => match n with | .tok t => some t | .ctx _ _ => none)

/-- An event, the path of its first token and its tokens. -/
structure EvT (α L A : Type) where
  ev : Event α L A
  path : List Nat
  toks : List (TokN α A)

/-- The generator `events(nodes)` inside `events_with_tokens`, `treebuilderutil.py:206-237`, for
    the children of the context at path `p` from index `i` on. The explicit stack of the original
    is a recursion here; the target factory is passed along. -/
def evNodes : (fuel : Nat) → Factory L → (p : List Nat) → (i : Nat) → List (Node α L A) →
    Factory L × List (EvT α L A)
  | 0, f, _, _, _ => (f, [])
  | _ + 1, f, _, _, [] => (f, [])
  | fuel + 1, f, p, i, .ctx l cs :: ns =>
    let r1 := evNodes fuel (f.push [l]) (p ++ [i]) 0 cs
    let r2 := evNodes fuel (r1.1.pop 1) p (i + 1) ns
    (r2.1, r1.2 ++ r2.2)
  | fuel + 1, f, p, i, .tok t :: ns =>
    let k := groupSize t ns
    let ts := t :: toksOf (ns.take (k - 1))
    let r := evNodes fuel f.get.2 p (i + k) (ns.drop (k - 1))
    (r.1, ⟨⟨f.get.1, ts.map (fun t => ⟨t.pos, t.text, t.act⟩)⟩, p ++ [i], ts⟩ :: r.2)

/-- What a slice of the loop `for context, slice_ in r.slices(target)` is preceded by. -/
inductive Move (L : Type) where
  | none
  | pop
  | push (l : L)

def Move.run (f : Factory L) : Move L → Factory L
  | .none => f
  | .pop => f.pop 1
  | .push l => f.push [l]

/-- A slice `(context, start, end)` and what the target factory is told before it is yielded. -/
abbrev FSlice (L : Type) := Move L × (List Nat × Nat × Option Nat)

/-- The slices on the way up from the start token, `tree.py:1033-1041`. -/
def upF (p : List Nat) : List Nat → List (FSlice L)
  | [] => []
  | [i] => [(.none, (p, i, none))]
  | i :: is => upF (p ++ [i]) is ++ [(.pop, (p, i + 1, none))]

/-- The lexicon of the context at a path. -/
def lexAt (root : Node α L A) (p : List Nat) : Option L :=
  match root.at p with
  | some (.ctx l _) => some l
  | _ => none

def pushAt (root : Node α L A) (p : List Nat) : Move L :=
  match lexAt root p with
  | some l => .push l
  | none => .none

/-- The slices on the way down to the end token, `tree.py:1052-1058`. -/
def downF (root : Node α L A) (p : List Nat) : List Nat → List (FSlice L)
  | [] => []
  | [i] => [(pushAt root p, (p, 0, some (i + 1)))]
  | i :: is => (pushAt root p, (p, 0, some i)) :: downF root (p ++ [i]) is

/-- `Range.slices(target_factory)`, `tree.py:1019-1060`, for non-empty trails. -/
def slicesF (root : Node α L A) (r : Rng) : List (FSlice L) :=
  (match r.startTrail with
   | i :: j :: js => upF (r.ancestor ++ [i]) (j :: js)
   | _ => []) ++
  (let m : Move L := if r.startTrail.length > 1 then .pop else .none
   match r.endTrail with
   | e :: f :: es => (m, (r.ancestor, startIdx r.startTrail, some e)) :: downF root (r.ancestor ++ [e]) (f :: es)
   | [e] => [(m, (r.ancestor, startIdx r.startTrail, some (e + 1)))]
   | [] => [(m, (r.ancestor, startIdx r.startTrail, none))])

/-- `context[slice_]`. -/
def cutSlice (cs : List (Node α L A)) (a : Nat) : Option Nat → List (Node α L A)
  | none => cs.drop a
  | some b => slice cs a b

/-- The loop `for context, slice_ in r.slices(target): yield from events(context[slice_])`. -/
def evSlices (root : Node α L A) : Factory L → List (FSlice L) → Factory L × List (EvT α L A)
  | f, [] => (f, [])
  | f, (m, (p, a, b)) :: ss =>
    let ns := cutSlice (root.kidsAt p) a b
    let r := evNodes (sizeL ns + 1) (m.run f) p a ns
    let r2 := evSlices root r.1 ss
    (r2.1, r.2 ++ r2.2)

/-- The target factory at the start of `events_with_tokens`, `treebuilderutil.py:239-245`: for the very
    first token of the tree all contexts below the root are still to be entered. -/
def startFac (root : Node α L A) (start : Leaf α A) : Factory L :=
  if start.1.getLast? = some 0 ∧ start.1.length > 1 ∧ (back root start.1).all (fun q => q.2.text.isEmpty) then
    Factory.init.push (ancLexs root start.1).reverse.tail
  else Factory.init

/-- `events_with_tokens`, `treebuilderutil.py:183-248`. -/
def eventsWithTokens (root : Node α L A) (start last : Leaf α A) : List (EvT α L A) :=
  match commonAncestor start last with
  | none => []
  | some r => (evSlices root (startFac root start) (slicesF root r)).2

/-! ### get_prepared_lexer -/

variable [DecidableEq α]

/-- Run the lexer to its end: the events and the lexicons open at the end (innermost first). -/
def lexAll (lang : Lang α L A ρ) (t : List α) : Nat → LState L ρ → List (Event α L A) × List L
  | 0, s => ([], s.stack)
  | n + 1, s =>
    match lexStep lang t s with
    | none => ([], s.stack)
    | some (s', ev) =>
      let r := lexAll lang t n s'
      (ev ++ r.1, r.2)

variable [DecidableEq L] [DecidableEq A]

/-- The loop over `zip(old_events, events)`, `treebuilderutil.py:170-180`: the events that remain
    (with the first different one pushed back) and the last group of tokens that is the same;
    none if there is no such group. `same_events` (341-356) is equality here. -/
def compareEvents : List (EvT α L A) → List (Event α L A) → Option (EvT α L A) →
    Option (List (Event α L A) × EvT α L A)
  | old :: os, new :: ns, prev =>
    if old.ev = new then compareEvents os ns (some old)
    else prev.map (fun p => (new :: ns, p))
  | _, ns, prev => prev.map (fun p => (ns, p))

/-- The nested loops that go back ten tokens, `treebuilderutil.py:150-160`: the start token, what
    remains of the generator, and whether the count was reached. -/
def seek (ok : Leaf α A → Bool) : (cur : Leaf α A) → List (Leaf α A) → (count : Nat) →
    Leaf α A × List (Leaf α A) × Bool
  | cur, [], _ => (cur, [], false)
  | cur, nxt :: rest, count =>
    if ok cur then
      if count = 1 then (cur, rest, true) else seek ok nxt rest (count - 1)
    else seek ok nxt rest count

/-- The result of `get_prepared_lexer`: the events to come, the lexicons open at their end, and
    the last group of tokens that remained the same. -/
structure Prepared (α L A : Type) where
  events : List (Event α L A)
  final : List L
  prev : EvT α L A

/-- A token where the lexer may be started, `treebuilderutil.py:154`. -/
def startOk (lang : Lang α L A ρ) (root : Node α L A) (q : Leaf α A) : Bool :=
  q.2.group.isNone && !firstConsume lang root q.1

/-- The loop `while start:`, `treebuilderutil.py:146-180`. The arguments: the generator `go_back`,
    the start token so far, the last token. -/
def prepLoop (lang : Lang α L A ρ) (lexFuel : Nat) (root : Node α L A) (rootLex : L) (t : List α)
    (last : Leaf α A) : (fuel : Nat) → Leaf α A → List (Leaf α A) → Option (Prepared α L A)
  | 0, _, _ => none
  | fuel + 1, st0, goBack =>
    let r : Leaf α A × List (Leaf α A) × Bool :=
      match goBack with
      | [] => (st0, [], false)
      | c :: rest => seek (startOk lang root) c rest 10
    let start := if r.2.2 then r.1.2.pos else 0
    let ev := lexAll lang t lexFuel
      (if start ≠ 0 then LState.start (ancLexs root r.1.1) start else LState.start [rootLex] 0)
    match compareEvents (eventsWithTokens root r.1 last) ev.1 none with
    | some (evs, prev) => some ⟨evs, ev.2, prev⟩
    | none => if start ≠ 0 then prepLoop lang lexFuel root rootLex t last fuel r.1 r.2.1 else none

/-- In the middle of a group. -/
def inGroup (t : TokN α A) : Bool :=
  match t.group with
  | none => false
  | some g => decide (0 ≤ g)

/-- `get_prepared_lexer(tree, text, start)`, `treebuilderutil.py:119-180`. -/
def prepared (lang : Lang α L A ρ) (lexFuel : Nat) (rootLex : L) (cs : List (Node α L A)) (t : List α)
    (start : Nat) : Option (Prepared α L A) :=
  let root := Node.ctx rootLex cs
  match findBefore start (sizeL cs + 1) [] cs with
  | none => none
  | some tok =>
    let goBack := back root tok.1
    let r : Option (Leaf α A × List (Leaf α A)) :=
      if inGroup tok.2 then
        match goBack.dropWhile (fun q => inGroup q.2) with
        | [] => none
        | q :: rest => some (q, rest)
      else some (tok, goBack)
    match r with
    | none => none
    | some (last, goBack) =>
      if start = 0 then none
      else prepLoop lang lexFuel root rootLex t last (goBack.length + 1) tok goBack

/-! ### build_new_tree -/

/-- `BuildResult`, `treebuilderutil.py:36-37`. -/
structure BuildResult (α L A : Type) where
  tree : Node α L A
  start : Nat
  stop : Nat
  offset : Int
  lexicons : Option (List L)

/-- `find_token_after`, `tree.py:883-906`, with the path. -/
def findAfter (pos : Nat) : (fuel : Nat) → List Nat → List (Node α L A) → Option (Leaf α A)
  | 0, _, _ => none
  | fuel + 1, path, cs =>
    let i := bisect (nodeIs cs (fun n => ((n.lastTok.map (fun t => decide (t.pos < pos))).getD true)))
      cs.length 0 cs.length
    match cs[i]? with
    | none => none
    | some (.tok t) => some (path ++ [i], t)
    | some (.ctx _ ds) => findAfter pos fuel (path ++ [i]) ds

/-- The generator `tail_gen`, `treebuilder.py:256-265`. -/
def tailGen (lang : Lang α L A ρ) (rootLex : L) (cs : List (Node α L A)) (stop : Nat) : List (Leaf α A) :=
  match findAfter stop (sizeL cs + 1) [] cs with
  | none => []
  | some tok =>
    (tok :: forward (.ctx rootLex cs) [] tok.1).filter (fun q =>
      (q.2.group.isNone || q.2.group == some 0) && !firstConsume lang (.ctx rootLex cs) q.1)

/-- The loop over the events, `treebuilder.py:304-324`: the tree under construction, and the tail
    token if the loop ended there. An event without lexemes does not occur. -/
def buildLoop (lang : Lang α L A ρ) (root : Node α L A) (offset : Int) :
    List (Leaf α A) → List (Event α L A) → BState α L A → BState α L A × Option (Leaf α A)
  | _, [], b => (b, none)
  | tail, e :: es, b =>
    let b1 := b.target e.target
    match e.lexemes.head? with
    | none => buildLoop lang root offset tail es (b.event e)
    | some lx =>
      let pos : Int := (lx.pos : Int) - offset
      let tail := tail.dropWhile (fun q => decide ((q.2.pos : Int) < pos))
      match tail with
      | [] => buildLoop lang root offset [] es (b.event e)
      | q :: rest =>
        if pos = q.2.pos ∧ lx.text = q.2.text ∧ lx.act = q.2.act ∧
            b1.cur.lex :: b1.up.map (·.lex) = ancLexs root q.1 ∧
            (b1.cur.kids ≠ [] ∨ lang.consume b1.cur.lex = false) then (b1, some q)
        else buildLoop lang root offset (q :: rest) es (b.event e)

/-- `new_tree`, `treebuilderutil.py:258-266`: empty contexts with these lexicons, innermost
    first. -/
def chain (lexs : List L) (rootLex : L) : BState α L A :=
  match lexs with
  | [] => ⟨⟨rootLex, []⟩, []⟩
  | l :: ls => ⟨⟨l, []⟩, ls.map (fun l => ⟨l, []⟩)⟩

/-- A change as given to `rebuild`: the new text, the root lexicon (`none`: False, not changed;
    `some none`: None), start, removed, added. -/
structure Change (α L : Type) where
  text : List α
  root : Option (Option L)
  start : Nat
  removed : Nat
  added : Nat

/-- The part of `build_new_tree` for a root lexicon, `treebuilder.py:246-372`. -/
def buildNewWith (lang : Lang α L A ρ) (lexFuel : Nat) (old : Option L) (cs : List (Node α L A)) (rootLex : L)
    (t : List α) (start removed added : Nat) : BuildResult α L A :=
  let stop := start + removed
  let offset : Int := (added : Int) - (removed : Int)
  let oldLex := old.getD rootLex
  let tail := if start + added < t.length then tailGen lang oldLex cs stop else []
  match (match old with
    | none => none
    | some l => prepared lang lexFuel l cs t start) with
  | some pr =>
    let b0 : BState α L A := chain (ancLexs (.ctx oldLex cs) pr.prev.path) rootLex
    let start' := (pr.prev.toks.getLast?.map TokN.stop).getD 0
    match buildLoop lang (.ctx oldLex cs) offset tail pr.events b0 with
    | (b, some q) => ⟨b.close, min start start', q.2.pos, offset, none⟩
    | (b, none) => ⟨b.close, min start start', t.length, 0, some pr.final.reverse.tail⟩
  | none =>
    let ev := lexAll lang t lexFuel (LState.start [rootLex] 0)
    match buildLoop lang (.ctx oldLex cs) offset tail ev.1 ⟨⟨rootLex, []⟩, []⟩ with
    | (b, some q) => ⟨b.close, 0, q.2.pos, offset, none⟩
    | (b, none) => ⟨b.close, 0, t.length, 0, some ev.2.reverse.tail⟩

/-- The tree of a TreeBuilder: the lexicon of the root can be None (then there are no tokens),
    `treebuilder.py:164`. -/
structure TTree (α L A : Type) where
  lex : Option L
  kids : List (Node α L A)

/-- `build_new_tree`, `treebuilder.py:218-372`; `none`: no root lexicon (248-249), the result is an
    empty tree without lexicon. -/
def buildNew (lang : Lang α L A ρ) (lexFuel : Nat) (tree : TTree α L A) (c : Change α L) :
    Option (BuildResult α L A) :=
  match c.root with
  | some none => none
  | some (some l) => some (buildNewWith lang lexFuel tree.lex tree.kids l c.text 0 0 c.text.length)
  | none =>
    match tree.lex with
    | none => none
    | some l => some (buildNewWith lang lexFuel (some l) tree.kids l c.text c.start c.removed c.added)

/-! ### replace_tree -/

/-- Move a token. -/
def TokN.shift (d : Int) (t : TokN α A) : TokN α A := { t with pos := ((t.pos : Int) + d).toNat }

mutual
/-- Move all tokens of a node (`t.pos += offset`). -/
def shiftN (d : Int) : Node α L A → Node α L A
  | .tok t => .tok (TokN.shift d t)
  | .ctx l cs => .ctx l (shiftL d cs)
def shiftL (d : Int) : List (Node α L A) → List (Node α L A)
  | [] => []
  | n :: ns => shiftN d n :: shiftL d ns
end

/-- Joining what is right of the end trail with the new tree, `treebuilder.py:427-440`, from the
    second round of the loop on: `c` is the old context, `t` the new one. (When `t` is empty and it
    is not the last round, the original would go on with a moved node; this does not occur. The same
    for an empty tree in the first round.) -/
def joinRest (d : Int) : (c t : Node α L A) → List Nat → Node α L A
  | _, t, [] => t
  | .ctx _ cs, .ctx l ts, i :: is =>
    let s := shiftL d (cs.drop (if is = [] then i else i + 1))
    if is = [] then .ctx l (ts ++ s)
    else
      match ts.getLast?, cs[i]? with
      | some tl, some c => .ctx l (ts.dropLast ++ [joinRest d c tl is] ++ s)
      | _, _ => .ctx l (ts ++ s)
  | _, t, _ :: _ => t
termination_by structural _ _ x => x

/-- The first round: the children of the new tree with what is joined. -/
def joinFirst (d : Int) (cs ts : List (Node α L A)) : List Nat → List (Node α L A)
  | e :: f :: es =>
    match ts.getLast?, cs[e]? with
    | some tl, some c => ts.dropLast ++ [joinRest d c tl (f :: es)]
    | _, _ => ts
  | _ => ts

/-- `slice_end`, `treebuilder.py:423-431`. -/
def sliceEnd : List Nat → Option Nat
  | [] => none
  | [e] => some e
  | e :: _ :: _ => some (e + 1)

/-- Replacing what is right of the start trail, `treebuilder.py:450-468`: `cs` are the children of
    the old context, `ts` those of the new one, `after` what remains of the old context behind the
    replaced slice. None: IndexError. -/
def replaceStart : (cs ts after : List (Node α L A)) → List Nat → Option (List (Node α L A))
  | _, ts, after, [] => some (ts ++ after)
  | cs, ts, after, [i] => some (cs.take (i + 1) ++ ts ++ after)
  | cs, ts, after, i :: j :: is =>
    match cs[i]?, ts with
    | some (.ctx l ds), .ctx _ us :: ts' =>
      (replaceStart ds us [] (j :: is)).map (fun r => cs.take i ++ .ctx l r :: ts' ++ after)
    | _, _ => none
termination_by structural _ _ _ x => x

/-- The part after the context that really changes has been found, `treebuilder.py:417-472`. -/
def replaceHere (d : Int) (cs ts : List (Node α L A)) (st et : List Nat) : Option (List (Node α L A)) :=
  replaceStart cs (joinFirst d cs ts et)
    (match sliceEnd et with
     | none => []
     | some k => shiftL d (cs.drop k)) st

/-- The whole of it for trees with the same lexicon, `treebuilder.py:400-472`; the recursion is the
    loop that finds the context that really changes (407-413). The nodes behind it, in the
    ancestors, are moved (473-474). -/
def replaceAt (d : Int) : (cs ts : List (Node α L A)) → (st et : List Nat) → Option (List (Node α L A))
  | cs, [.ctx l0 us], s :: st, e :: et =>
    if s = e then
      match cs[s]? with
      | some (.ctx l ds) =>
        if st = [] ∨ et = [] then
          (replaceHere d ds us (s :: st) (e :: et)).map (fun r => cs.take s ++ .ctx l r :: shiftL d (cs.drop (s + 1)))
        else (replaceAt d ds us st et).map (fun r => cs.take s ++ .ctx l r :: shiftL d (cs.drop (s + 1)))
      | _ => none
    else replaceHere d cs [.ctx l0 us] (s :: st) (e :: et)
  | cs, ts, st, et => replaceHere d cs ts st et
termination_by structural _ _ x => x

/-- `replace_tree`, `treebuilder.py:374-474`; `same` is `==` of lexicons. `none` is an exception. -/
def replaceTree (same : L → L → Bool) (tree : TTree α L A) : Option (BuildResult α L A) → Option (TTree α L A)
  | none => some ⟨none, []⟩
  | some r =>
    match r.tree with
    | .tok _ => none
    | .ctx l ts =>
      match tree.lex with
      | none => some ⟨some l, ts⟩
      | some l' =>
        if same l l' then
          match (if r.start ≠ 0 then (findTokenLeftTrail tree.kids r.start).map (·.2) else some []),
            (if r.lexicons.isNone then (findTokenTrail tree.kids r.stop).map (·.2) else some []) with
          | some st, some et => (replaceAt r.offset tree.kids ts st et).map (fun cs => ⟨some l', cs⟩)
          | _, _ => none
        else some ⟨some l, ts⟩

/-- One round of `process`, `treebuilder.py:566-570`, for one change. -/
def rebuild (lang : Lang α L A ρ) (same : L → L → Bool) (lexFuel : Nat) (tree : TTree α L A) (c : Change α L) :
    Option (TTree α L A) :=
  replaceTree same tree (buildNew lang lexFuel tree c)

end Parce.RB
