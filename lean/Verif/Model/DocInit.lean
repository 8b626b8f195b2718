/-!
# Model of `WorkerDocumentMixin` in parce/work.py: making a document, with or without a worker

`L` are lexicons, `T` transformers, `K` the children of the root context, `R` the results. `build` is what the tree builder makes of a text
(that an update gives the same children as building from scratch is C10 and others), `tr` the transformed result of a tree (that the
results cached for the children are right is C48). The worker is a plain `Worker`, or one with threads when all of them have ended.
A result that is None is not told apart from no result, as `get_transform()` does not either.
-/
namespace Parce.DI
variable {L T K R : Type}

/-- What a builder and the transformers do. -/
structure Env (L T K R : Type) where
  /-- no children -/
  empty : K
  build : L → List Nat → K
  /-- `transform_tree` for a root with a lexicon, `transform.py:302-346` -/
  tr : T → L → K → Option R

/-- A worker and its builder: `root.lexicon`, the children of the root, `_transformer`, and the result that each transformer has
    for the root. -/
structure Wk (L T K R : Type) where
  lex : Option L
  kids : K
  trans : Option T
  result : T → Option R

/-- `Worker(TreeBuilder(root_lexicon), transformer)`, `work.py:93-106`. -/
def Wk.new (e : Env L T K R) (lex : Option L) (trans : Option T) : Wk L T K R := ⟨lex, e.empty, trans, fun _ => none⟩

/-- `Transformer.transform_tree`: None if there is no root lexicon, `transform.py:306-307`. -/
def Env.result (e : Env L T K R) (t : T) (lex : Option L) (k : K) : Option R := lex.bind (fun l => e.tr t l k)

/-- The second half of `Worker.process`, `work.py:190-206`. -/
def Wk.process [DecidableEq T] (e : Env L T K R) (w : Wk L T K R) : Wk L T K R :=
  match w.trans with
  | none => w
  | some t => ⟨w.lex, w.kids, w.trans, fun x => if x = t then e.result t w.lex w.kids else w.result x⟩

/-- The children that the builder makes: none without a root lexicon. -/
def Env.kids (e : Env L T K R) (lex : Option L) (text : List Nat) : K :=
  match lex with
  | none => e.empty
  | some l => e.build l text

/-- `update(text, root_lexicon)`, `work.py:132-144`; `none` for `root_lexicon=False`. -/
def Wk.update [DecidableEq T] (e : Env L T K R) (text : List Nat) (lex : Option (Option L)) (w : Wk L T K R) : Wk L T K R :=
  Wk.process e ⟨lex.getD w.lex, e.kids (lex.getD w.lex) text, w.trans, w.result⟩

/-- `set_transformer(transformer)`, `work.py:110-126`. -/
def Wk.setTransformer [DecidableEq T] (e : Env L T K R) (t : Option T) (w : Wk L T K R) : Wk L T K R :=
  if t = w.trans then w else Wk.process e ⟨w.lex, w.kids, t, w.result⟩

/-- `get_transform(wait=True)`, `work.py:265-287`. -/
def Wk.getTransform (w : Wk L T K R) : Option R := w.trans.bind w.result

/-- A document: its text and its worker. -/
structure Doc (L T K R : Type) where
  text : List Nat
  worker : Wk L T K R

/-- `WorkerDocumentMixin.__init__`, `work.py:356-372`. -/
def Doc.new [DecidableEq T] (e : Env L T K R) (rootLexicon : Option L) (text : List Nat) (worker : Option (Wk L T K R)) (transformer : Option T) :
    Doc L T K R :=
  let w := match worker with
    | none => Wk.new e rootLexicon transformer
    | some w => match rootLexicon with
      | none => w
      | some l =>
        let w : Wk L T K R := ⟨some l, e.empty, w.trans, w.result⟩
        match transformer with
        | none => w
        | some t => w.setTransformer e (some t)
  ⟨text, if text ≠ [] ∧ rootLexicon.isSome then w.update e text none else w⟩

/-- `text_changed`, `work.py:460-466`: the text was changed to `text`. Only for documents where the tree is that of the text: then the
    builder makes the tree of the new text. -/
def Doc.edit [DecidableEq T] (e : Env L T K R) (text : List Nat) (d : Doc L T K R) : Doc L T K R := ⟨text, d.worker.update e text none⟩

/-- `set_root_lexicon(lexicon)`, `work.py:400-410`, when no work is being done. -/
def Doc.setRootLexicon [DecidableEq T] [DecidableEq L] (e : Env L T K R) (lex : Option L) (d : Doc L T K R) : Doc L T K R :=
  if lex = d.worker.lex then d else ⟨d.text, d.worker.update e d.text (some lex)⟩

/-- `set_transformer(transformer)`, `work.py:386-394`. -/
def Doc.setTransformer [DecidableEq T] (e : Env L T K R) (t : Option T) (d : Doc L T K R) : Doc L T K R :=
  ⟨d.text, d.worker.setTransformer e t⟩

end Parce.DI
