# Formal model of parce: design

## Approach

The target is the Python package `parce` (source in `/repo`, read as text, not built or imported; one exception: the dictionary literal `DUMP_STYLES`, `parce/tree.py:58-65`, was evaluated by Python when its texts were copied to Model/Dump).
Every model is a set of small total Lean 4 functions that mirror the Python
functions branch by branch. Each definition cites the file and lines it models and
says where it simplifies. Properties are stated in separate files, in terms of the
modelled API functions and of small independent specifications.

* Text is a list of characters (`List α`, generic in the character type where the
  code never inspects the characters). Positions are `Nat` unless Python allows
  negative numbers (slice keys, block numbers), then `Int`.
* Exceptions are values (`Except`/`Option` or an error constructor).
* Mutable objects are state records, methods are state transformers.
* Regular expressions, user supplied actions, transform methods, themes, indenters and
  predicates are universally quantified functions. So a theorem about the lexer
  holds for every language.
* Threads are transition systems: one step per atomic action, arbitrary scheduler,
  arbitrary number of threads.
* Python generators are modelled by the list of the values they yield.
* Nodes of a tree are identified by their path from the root.
* Loops are modelled with a fuel argument that is proved to be sufficient, or with a
  terminating measure.

Where the code violates a property, the model stays faithful: the violation is proved
as a theorem with a concrete witness (`…_violated…`), the property is proved under the
extra hypothesis that is missing (suffix `_partial`), and it is recorded in the list of
disagreements below.

## Layout

    lean/Verif/Model/*.lean    models (definitions only, with citations)
    lean/Verif/Spec/*.lean     independent specifications used in the statements
    lean/Verif/Lemmas/*.lean   helper lemmas
    lean/Verif/Props/*.lean    property theorems, each with a non-vacuity example
    properties.jsonl           the properties in English
    MANIFEST.json              property -> theorems
    seeded/LOG.jsonl           the wrong programs that were tried against the theorems

## Trusted base

* Lean 4.33.0's kernel; the axioms used are at most `propext`, `Classical.choice`
  and `Quot.sound`; the list per theorem is at the end of this file. No own axioms, no
  `sorry`, no `native_decide`, no `bv_decide`.
* The faithfulness of the definitions in `Verif/Model` to the Python source.
* The semantics of Python built-ins used by the code (`str.find`, `sorted` being
  stable, dictionaries keeping insertion order, atomicity of single dictionary and list
  operations, exact arithmetic instead of floating point), as described next to the definitions.

## What is modelled, and what is not

| source | modelled | not modelled |
|--------|----------|--------------|
| `mutablestring.py`, `document.py` | edits in nested contexts, slices and keys, undo and redo, modified flag, events, cursors and their methods, blocks, `replace`, `re_sub`, `trim`, `translate` | `step` in slices, separators of more than one character, replacement functions that raise |
| `lexicon.py`, `lexer.py`, `target.py` | the parse functions (pattern, literal, default action and target), the loop of the lexer, targets | the module `re` itself: in most theorems the matcher is a parameter; `Model/Re.lean` models it for expressions without backreferences, conditional and atomic groups |
| `tree.py`, `treebuilder.py`, `treebuilderutil.py` | nodes, navigation, searching, ranges, `build_tree`, events and group tokens, `Changes`, the process of the tree builder as a state machine, `build_new_tree` (also with changes that arrive while the tree is built), `replace_tree` and what they use, `same_events` (Model/SameEvents) and `dump` (Model/Dump) | `repr` of nodes |
| `work.py` | states of the worker, `update`, `process`, `get_root`, threads (Model/Worker); `set_transformer`, `start`, `process` with the transformer, `get_transform` (Model/WorkerTransform), `slot_invalidate` (Model/SwitchTransformer); `WorkerDocumentMixin.token` (Model/TokenAt), making a document and setting its root lexicon (Model/DocInit) | timing, the Qt-like event loop |
| `util.py` | Observable, Switch, object_locker, cached_method, caching_dict, file_cache, Dispatcher, merge_adjacent, fix_boundaries, get_bom_encoding, split_list, unroll, tokens, language_sister_class | the end of the life of weak references (except for Switch), module introspection |
| `lexicon.py` | how lexicons are made, kept and compared (Model/LexiconStore), parse functions (Model/Lexer) | `repr` |
| `ruleitem.py`, `rule.py` | items, evaluation, pre-evaluation, variations, the functions that make items (Model/RuleHelpers, with concrete values) | pickling and `repr` |
| `regex.py` | words2regexp, make_charclass, to_string (Model/ToString), and expressions with a grammar and meaning of regular expressions; the order in which the tuples come out of a set is a parameter (any permutation) | |
| `transform.py` | ItemList, transform_text, transform_tree, caching, process | the search for transform classes |
| `query.py` | the selectors and iterators; `pick`, `count` and `slice` (Model/QueryPick) | |
| `css.py`, `theme.py` | cascade, selectors, preludes, colours, text formats, `@import` and conditions, `CssTransform` (Model/CssLang; numbers and colours are parameters), quoting (Model/Quote), lxml elements (Model/LxmlElement), `CssIO.find_encoding` (Model/FindEncoding), reading and writing text formats (Model/TextFormat), the elements that a theme looks up (Model/ThemeElement), sums of style sheets and the style sheet of a theme (Model/SheetSum) | counters |
| `formatter.py`, `out/html.py` | format_ranges, themes per language, adding/removing/copying themes, format contexts, `format_document` (Model/FormatDocument), HTML escaping, inline CSS, complete documents | caching of formats |
| `standardaction.py`, `registry.py` | completely | import of modules |
| `indent.py` | completely, the language-specific indenters are a parameter; `CssIndent`; `Indenter.find_indent` (Model/Sister); `LilyPondIndent` (Model/LilyIndent) | |
| `validate.py` | `check_default_target`, `LexiconValidator.validate` (Model/ValidateLexicon) | the texts of the messages, `validate_transform` |
| `lang/json.py` | all lexicons and transform methods (Model/Json); `\d`, `\s`, `\w` are parameters outside ASCII; `float` is a parameter | |
| `lang/ini.py`, `language.py` `comment_common` | all lexicons and transform methods (Model/Ini); what `\w` matches and `chr(int(text, 16))` are parameters | the faster parse function for the literal rule of `section` (the same by C24) |
| `lang/xml.py` | `_XmlBase`, `Xml` (Model/Xml): all lexicons; what `\s`, `\w` match outside ASCII is a parameter; IGNORECASE for CDATA, DOCTYPE and the characters of names; `XmlIO.find_encoding` (Model/XmlEncoding) | `Dtd` (also within `internal_dtd`); the faster parse function for the literal rule of `cdata` |
| `lang/toml.py` | `Toml` (Model/Toml): all lexicons; what `\d`, `\s`, `\w` match outside ASCII is a parameter | nothing; C121 is about documents without addresses, URLs and alert words in comments |
| `lang/html.py` | `XHtml`, `Html` (Model/Html): all lexicons; the rules of Css and JavaScript are a parameter; IGNORECASE for the letters of the names; `XHtmlIO.find_encoding` (Model/HtmlEncoding) on the tree | `using(Css.inline)` is one action |
| `lang/csv.py`, `ruleitem.py` `SubgroupAction` | all lexicons and transform methods (Model/Csv, Model/ReGroup); `\s` is a parameter outside ASCII | — |
| `lang/numbers.py` | all lexicons and transform methods of the four languages (Model/Numbers); what Python knows about characters (`\s`, IGNORECASE, `lower`) is a parameter | — |
| `ruleitem.py` `SubgroupAction`, `DelegateAction`, `SkipAction`; `lexer.py` `filter_actions` | all, with dynamic actions as functions of text and groups, nested lexers up to a depth (Model/Action) | recursion limit |
| other `lang/*.py` | nothing: all other theorems hold for every language | the definitions of the other bundled languages |
| `introspect.py` | `lexicons`, `rule_items`, `standardactions`, `languages` (Model/Introspect) | `decision_tree` (it only calls `variations_tree`, C44) |
| `docio.py` | `decode_data`, `encode_text`, `from_bytes`, `to_bytes`, `IO.find_encoding`, `_validate_encoding` (Model/DocIO); `load`, `save`, `localfile` with `urlparse` (Model/SaveLoad); codecs are a parameter, with models of UTF-8, UTF-16-LE and Latin 1; `IO.get` (Model/Sister) | `errors` |
| `themes/*` | nothing | all |

## Per property

The statements in English are in `properties.jsonl`; the file is the one in `lean/Verif/Props`.

### C01 Edits inside a context apply as one simultaneous replacement

proved; Edit. Proof: the requests of a context against a specification that copies and replaces position by position; induction over the sorted changes.
All texts, all properly nested bodies; no-op assignments are ignored by the code, so same-start requests are stated over the effective ones.
Theorems: `C01_context_is_splice`, `C01_context_is_splice_distinct`, `C01_noop_same_start_ignored`.

### C02 The reported change describes the edit exactly

proved; Edit. Proof: the reported triple rebuilds the new text from the old; induction over the changes.
Theorems: `C02_report_accurate`, `C02_rebuild`, `C02_silent_without_effect`.

### C03 Edit order does not matter for distinct positions

proved; Edit. Proof: sorting of a permutation with distinct keys is unique.
Theorems: `C03_order_irrelevant`.

### C04 A failing or cancelled edit context changes nothing

proved; Edit. Proof: case analysis over the ways to fail; the text is untouched in each.
Theorems: `C04_failing_context_changes_nothing`, `C04_raises_iff`, `C04_exception_exit_is_clean`.

### C05 A rejected overlapping edit does not poison later edits

partial; Edit. Proof: witness; recovery after an exception.
Violated by the code: pending requests survive the overlap error.
Theorems: `C05_violated`, `C05_violated_always`, `C05_recovery_partial`.

### C06 Reading and writing with slices follows Python sequence rules

proved; Edit. Proof: Python slices written as take and drop; integer arithmetic.
Slices without step.
Theorems: `C06_read_slice`, `C06_read_index`, `C06_write`, `C06_write_out_of_range`, `C06_index_region`, `C06_insert_append`, `C06_set_text`.

### C07 Undo exactly reverts an edit and redo re-applies it

proved; Document. Proof: the reverse changes applied to the new text give the old; induction over the changes.
Any clean document with any stacks.
Theorems: `C07_undo_redo`.

### C08 Any history of edits can be fully undone and redone

proved; Document. Proof: invariant: the stacks are chains of inverse changes; induction over the history.
Histories without a rejected overlapping block (C05 shows such a block breaks the document).
Theorems: `history_inv`, `C08_undo_all`, `C08_redo_all`.

### C09 modified == False means the text is the saved text

proved; Document. Proof: invariant: unmodified implies the text is the saved text.
Theorems: `C09_unmodified_is_saved`, `C09_undo_restores_flag`, `C09_event`.

### C10 A new edit discards the redo history; undo availability events are accurate

partial; Document. Proof: case analysis of the events; witness for undo.
First half proved; events exact for edits and clear_undo_redo; undo()/redo() never announce the loss of availability.
Theorems: `C10_edit_discards_redo`, `C10_events_exact_partial`, `C10_violated`, `C10_violated_always`.

### C11 A cursor follows a single edit

proved; Document. Proof: case analysis per cursor.
Theorems: `C11_cursors_follow`.

### C12 A cursor follows a batch of edits

partial; Document. Proof: witnesses; one change, and positions of batches under a separation hypothesis.
Violated by the code for batches.
Theorems: `C12_violated_coordinates`, `C12_violated_skip`, `C12_positions_partial`.

### C13 Blocks partition the text

proved; Block. Proof: lines defined by splitting at the separator, and as intervals between separators; induction over the text.
One-character separator.
Theorems: `joinLines_linesOf`, `C13_blocks_partition`, `C13_adjacent`, `C13_blocks_range`.

### C14 find_block returns the block containing the position

proved; Block. Proof: lines defined by splitting at the separator, and as intervals between separators; induction over the text.
One-character separator.
Theorems: `C14_find_block`, `C14_unique`.

### C15 Block numbers are consistent

proved; Block. Proof: lines defined by splitting at the separator, and as intervals between separators; induction over the text.
One-character separator.
Theorems: `C15_by_number`, `C15_none`, `obtained_good`, `C15_block_number`, `C15_blocks_obtained`.

### C16 next_block and previous_block are inverse

proved; Block. Proof: lines defined by splitting at the separator, and as intervals between separators; induction over the text.
One-character separator.
Theorems: `C16_next_previous`.

### C17 Targets compose

proved; Lexer. Proof: effect of a target on any stack; composition.
Theorems: `C17_compose`, `C17_add`, `C17_none_iff`, `C17_make`.

### C18 The root lexicon is never left

proved; Lexer. Proof: invariant of the loop: the root is never popped.
For every language and text, also without assumptions on the regular expressions.
Theorems: `C18_root_kept`, `C18_lexer_stack`.

### C19 Lexemes are ordered, non-overlapping slices of the text

proved; Lexer. Proof: invariant of the loop over the positions of the lexemes.
For actions that expand a token within the token.
Theorems: `C19_lexemes_ordered`, `C19_plain`.

### C20 A default action makes lexing complete

partial; Lexer. Proof: invariant of the loop over the positions of the lexemes.
Violated by the code when empty matches enter lexicons in a circle; proved when matches of the empty string do not enter a lexicon.
Theorems: `C20_violated`, `C20_complete_partial`, `C20_prefix_partial`.

### C21 The tree mirrors the event stream

proved; Tree. Proof: the tree replays the events; invariant relating the open contexts to the stack.
Theorems: `C21_tree_mirrors_events`, `C21_tokens`, `C21_build_tree`.

### C22 No empty contexts

proved; Tree. Proof: the tree replays the events; invariant relating the open contexts to the stack.
C22_built_ordered shows that built trees satisfy the hypotheses of C26-C31.
Theorems: `C22_lexemes_ne`, `C22_no_empty_contexts`, `C22_first_last`, `C22_built_ordered`.

### C23 Lexing terminates

partial; Circular, Lexer. Proof: Witnesses of divergence: at the root, at the end of the text, by growth, and by a circle of bounded height that the detection of circular targets misses, because it empties its set at states that enter no lexicon. Termination by a measure of text, position and stack; and for circular targets: an endless run stays at one position in the end and follows only targets; the number of lexicons below the top that leave something decreases until every lexicon that comes to the top by leaving others enters one; then between two times the set is emptied a state that enters a lexicon is seen twice, so the position advances..
Violated by the code; proved when targets followed without consuming text decrease a measure, and when circular ones enter at most one lexicon at a time and the stack remains below some height, so that the detection of circular targets works.
Theorems: `C23_violated`, `C23_violated_end`, `C23_violated_bounded`, `C23_violated_grows`, `C23_terminates_partial`, `C23_terminates_pops_partial`, `C23_circular_partial`, `C23_defaults_partial`.

### C24 Literal patterns behave like their regular expression

proved; Lexer. Proof: both parse paths give the same list.
Theorems: `C24_literal`.

### C25 Lexing can be resumed at a state

proved; Lexer. Proof: the loop restarted in a state gives the rest of the events.
Theorems: `C25_resume`, `C25_position`.

### C26 find_token finds the first token ending after the position

proved; Tree. Proof: structural induction over trees, correctness of the binary search, ordered token positions.
Theorems: `C26_find_token`, `C26_find_token_left`, `C26_find_token_after`, `C26_find_token_before`.

### C27 Trails lead to the token

proved; Tree. Proof: structural induction over trees, correctness of the binary search, ordered token positions.
Theorems: `C27_trail`, `C27_trail_left`.

### C28 forward and backward traverse the tokens in document order

proved; FindContext, Tree. Proof: structural induction over trees, correctness of the binary search, ordered token positions.
Theorems: `C28_forward_backward`, `C28_unique`, `C28_next_previous`, `C28_including`.

### C29 Tree measures and copies

proved; Tree. Proof: structural induction over trees, correctness of the binary search, ordered token positions.
Height for trees without empty contexts, which are all the trees built (C22).
Theorems: `C29_tokens`, `C29_height`, `C29_copy`.

### C30 Grouped tokens form complete groups

proved; Tree. Proof: structural induction over trees, correctness of the binary search, ordered token positions.
Theorems: `C30_group`, `C30_built_in_pieces`, `C30_every_event`, `C30_disjoint`.

### C31 A range yields exactly the tokens it touches

partial; Tree. Proof: structural induction over trees, correctness of the binary search, ordered token positions.
Violated by the code for a range in a gap between tokens; proved when at least one token is touched.
Theorems: `C31_range_partial`, `C31_none`, `C31_empty`, `C31_violated`.

### C32 Accumulated changes cover every edit

partial; Changes. Proof: composition of edits of one interval; witness.
Violated by the code: the start of the merged region never decreases; proved for changes that do not start before the region.
Theorems: `C32_merge_partial`, `C32_sequence_partial`, `C32_insert_before_partial`, `C32_removed_none`, `C32_start_never_decreases`, `C32_violated`, `C32_violated_always`, `C32_root`, `C32_has_changes`, `C32_new_position`.

### C33 Incremental rebuilding equals rebuilding from scratch

partial; Rebuild. Proof: replaying `events_with_tokens` from a cut of the old tree gives the next cut (`RebuildReplay`, `RebuildEvents`); the lexer is local and can be restarted and shifted (`RebuildLex`); so the prepared lexer continues the new events (`RebuildPrep`), the first tail token met starts the same events as in the old text (`RebuildTail`), and `replace_tree` puts the three parts together (`RebuildReplace`, with trees as a path of open contexts and what comes right of it).
Proved for every edit and text, for languages that look at most 9 characters ahead, not behind (or one character behind, as with a word boundary, if tokens of a lexicon with the same text and action have the same target), and whose actions keep the start of a match; violated otherwise (lookahead of 12, lookbehind of 1, a subgroup action dropping the start, a root lexicon derived from the old one); changes arriving during a build are in C34.
Theorems: `RB.C33_edit_partial`, `RB.C33_edits_partial`, `RB.C33_behind_partial`, `RB.C33_root`, `RB.C33_no_lexicon`, `RB.C33_lookahead_violated`, `RB.C33_lookbehind_violated`, `RB.C33_subgroup_violated`, `RB.C33_derived_root_violated`.

### C34 No requested change is lost by concurrent rebuild requests

partial; Process. Proof: transition system of any number of threads; inductive invariant, progress, decreasing measure; witness schedule.
No change is lost, no deadlock, for every interleaving of any number of threads; exclusion is violated by the code when calls of rebuild() overlap and proved when they do not.
Theorems: `C34_no_lost_change`, `C34_progress`, `C34_terminates`, `C34_violated_exclusive`, `C34_exclusive_partial`.

### C35 get_root(wait=True) returns the tree for the latest text

partial; Process. Proof: transition system of worker threads; invariant; witness schedule.
Violated by the code: the previous process() resets the tree state of the next one; proved when at most one thread is in process().
Theorems: `C35_violated`, `C35_root_current_partial`, `C35_quiescent`.

### C36 Observers are called once each, in priority order

proved; Observable. Proof: invariant over all sequences of operations.
For every sequence of operations; with functions that disconnect during emit the claim fails (C36_violated_reentrant).
Theorems: `Obs.C36_observable`, `Obs.C36_connected`, `Obs.C36_once`, `Obs.C36_violated_reentrant`.

### C37 Object locks are exclusive

partial; Locker. Proof: transition system of the lock table; invariant; witness schedule.
Violated by the code: the lock is forgotten while others wait for it; proved while no thread waits.
Theorems: `OL.C37_violated`, `OL.C37_same_lock_partial`, `OL.C37_no_error`, `OL.C37_exclusive_partial`.

### C38 Adjacent ranges are merged without losing text

partial; Util. Proof: induction over the ranges.
Violated by the code with the default factory, which raises TypeError; proved for every factory that works.
Theorems: `C38_merge`, `C38_factory`, `C38_fix`, `C38_violated_default`.

### C39 Formatting reproduces the text

partial; Formatter. Proof: induction over contexts and tokens; ranges partition the text.
Violated by the code for a range in a gap, and for several themes with a part of the tree; proved for one theme when a token is touched, for the whole tree with any number of themes, and without theme.
Theorems: `C39_format_ranges_partial`, `C39_text_partial`, `C39_violated_gap`, `C39_violated_languages`.

### C40 HTML output is safe and lossless

proved; Formatter. Proof: successive replacements equal the character-wise escape.
C40_document inherits the hypotheses of C39_text_partial; the rest holds for all texts and formats.
Theorems: `C40_escape`, `C40_attrescape`, `C40_html`, `C40_document`.

### C41 Byte order marks are recognised

partial; Util. Proof: case analysis of the byte order marks.
Violated by the code for UTF-32-LE; proved for the other encodings.
Theorems: `C41_bom_partial`, `C41_none`, `C41_lossless`, `C41_violated`.

### C42 List splitting helpers

proved; Util. Proof: induction over lists.
Theorems: `C42_split_list`, `C42_unroll`.

### C43 Pre-evaluation does not change the meaning of a rule

partial; RuleItem. Proof: structural induction over rule items and environments.
Violated by the code for calls chosen by a select and for delegate or pattern items with a call inside; proved for rules without these and with constant subgroup actions, when pre-evaluation does not raise.
Theorems: `RI.C43_item_partial`, `RI.C43_rule_partial`, `RI.C43_pattern`, `RI.C43_constant_partial`, `RI.C43_needed`, `RI.C43_index`, `RI.C43_violated_select`, `RI.C43_violated_needs`, `RI.C43_violated_raise`.

### C44 Variations cover every outcome

partial; RuleItem. Proof: structural induction over rule items and environments.
Violated by the code for rules with skip; proved for rules without skip and nested lists, for all environments.
Theorems: `RI.C44_variations_partial`, `RI.C44_tree_partial`, `RI.C44_violated_skip`.

### C45 A word-list regular expression matches exactly the words

partial; Regex. Proof: grammar of regular expressions with unique parsing, meaning as sets of texts; trie induction.
Violated by the code for the empty list of words (the empty string is matched); proved for every non-empty list, with a grammar of regular expressions in which a text has exactly one meaning.
Theorems: `Rx.C45_words_partial`, `Rx.C45_unambiguous`, `Rx.C45_violated_empty`.

### C46 Character classes match exactly their characters

proved; Regex. Proof: grammar of regular expressions with unique parsing, meaning as sets of texts; trie induction.
Theorems: `Rx.C46_charclass`, `Rx.C46_unambiguous`.

### C47 Transforming text equals transforming the tree

partial; Transform. Proof: induction over trees and events; cache invariant.
Holds for transforms without @add_untransformed (or without missing methods) when the text does not end in a context without a method; otherwise the code raises IndexError or gives another value.
Theorems: `C47_events_partial`, `C47_events_index`, `C47_text_partial`, `C47_violated_end`, `C47_violated_untransformed`.

### C48 Cached transforming equals fresh transforming

partial; Transform. Proof: induction over trees and events; cache invariant.
Proved for every tree, cache and interruption; invalidate_node raises KeyError for a context that was never transformed and then leaves wrong entries.
Theorems: `C48_cached`, `C48_fresh`, `C48_process`, `C48_invalidate`, `C48_violated_invalidate`.

### C49 Item list helpers

proved; Transform. Proof: induction over trees and events; cache invariant.
Theorems: `C49_grouped`, `C49_peek`.

### C50 Query all visits every node once in document order

proved; Query. Proof: induction over trees; selections as lists of paths.
Theorems: `C50_all`, `C50_allcontexts`, `C50_alltokens`, `C50_once`.

### C51 is_not complements a selector

partial; Query. Proof: induction over trees; selections as lists of paths.
Violated by the code for in_range: a node that is partly in the range is yielded by neither; proved for all other selectors.
Theorems: `C51_select`, `C51_complement_partial`, `C51_in_range_partial`, `C51_violated`.

### C52 Query deletion removes exactly the selected nodes

proved; Query. Proof: induction over trees; selections as lists of paths.
For trees with the tokens in order and without empty contexts, as built by the tree builder.
Theorems: `C52_delete`, `C52_tokens`.

### C53 CSS cascade

partial; Css. Proof: induction over declarations; split against a grammar.
Violated by the code: !important of the first declaration seen is not recorded; an empty value or prelude raises; the partial theorem covers the rest.
Theorems: `Css.C53_cascade_partial`, `Css.C53_violated_important`, `Css.C53_violated_raise`.

### C54 CSS selector matching follows the combinators

partial; Css. Proof: soundness by induction over combinators; completeness where a combinator has one candidate.
Violated by the code: no backtracking over combinators, the universal selector matches nothing, an empty attribute value matches anything; matching is proved sound and complete where no backtracking is needed.
Theorems: `Css.C54_compound`, `Css.C54_sound`, `Css.C54_match_partial`, `Css.C54_prelude`, `Css.C54_violated_child`, `Css.C54_violated_sibling`, `Css.C54_violated_universal`, `Css.C54_violated_empty`.

### C55 CSS colours are read correctly

partial; Color. Proof: arithmetic on digits.
Violated by the code: zero components are dropped, alpha percentages are floored; hexadecimal colours are proved completely.
Theorems: `Col.C55_hex6`, `Col.C55_hex3`, `Col.C55_hex8`, `Col.C55_hex4`, `Col.C55_rgb_partial`, `Col.C55_range`, `Col.C55_violated_zero`, `Col.C55_violated_opacity`.

### C56 Text format arithmetic

partial; Theme. Proof: case analysis per property.
Violated by the code for properties that are explicitly None; equal values are proved for all formats.
Theorems: `Theme.C56_self`, `Theme.C56_add`, `Theme.C56_sub`, `Theme.C56_values`, `Theme.C56_restore_partial`, `Theme.C56_violated`.

### C57 Standard actions are singletons in a hierarchy

partial; StandardAction. Proof: transition system of threads that create actions; invariant; paths.
Sameness holds for every interleaving; violated by the code while an action is being made (another thread can get it without its name and parent) and for the names _name and _parent.
Theorems: `SA.C57_same`, `SA.C57_different`, `SA.C57_path`, `SA.C57_in`, `SA.C57_and`, `SA.C57_violated_half`, `SA.C57_violated_reserved`.

### C58 Registry lookup

partial; Registry. Proof: association lists; insertion sort by weight.
Violated by the code: the fallback of an empty registry is not consulted; the documented priority of the file name does not hold; the rest is proved.
Theorems: `Reg.C58_qualname`, `Reg.C58_suggest`, `Reg.C58_find_partial`, `Reg.C58_violated_empty`, `Reg.C58_docstring_violated`.

### C59 Indenting is stable

partial; Indent. Proof: edits of lines lifted to the text; induction over the lines with the stack of indents.
Violated by the code for lines without text in an indented part (they get more white space every time); proved for documents where the lines that may be indented have text.
Theorems: `Ind.C59_partial`, `Ind.C59_violated`.

### C60 Indent level never goes below the first level and increase/decrease are inverse

partial; Indent. Proof: edits of lines lifted to the text; induction over the lines with the stack of indents.
The stack is never emptied, for all events; the inverse is violated by the code for lines without text and proved for the others.
Theorems: `Ind.C60_never_empty`, `Ind.C60_increase`, `Ind.C60_decrease`, `Ind.C60_inverse_partial`, `Ind.C60_violated`.

### C61 Default-target validation terminates and is sound

partial; Validate. Proof: lexicographic measure (contexts not yet seen, depth); simulation of the lexicon stack.
Termination is proved completely; soundness is violated by the code when the target leaves the first context (silent return) and proved otherwise.
Theorems: `Val.C61_terminates`, `Val.C61_sound_partial`, `Val.C61_invalid`, `Val.C61_violated`, `Val.C61_false_alarm`.

### C62 Query set operators

proved; Query. Proof: induction over trees; selections as lists of paths.
Theorems: `C62_uniq`, `C62_remove_descendants`, `C62_remove_ancestors`, `C62_range`, `C62_children`.

### C63 CSS preludes are split at the combinators and commas

proved; Css. Proof: induction over declarations; split against a grammar.
Theorems: `Css.C63_prelude`, `Css.C63_alternates`.

### C64 The font size that is written is the one that was given

partial; Theme. Proof: case analysis per property.
Violated by the code: the unit of an earlier size is written behind a size word, a size of zero is not written.
Theorems: `Theme.C64_size_partial`, `Theme.C64_violated`.

### C65 Registering a language

proved; Registry. Proof: association lists; insertion sort by weight.
Theorems: `Reg.C65_add`, `Reg.C65_inherit`, `Reg.C65_errors`.

### C66 Stripping trailing blanks

proved; Indent. Proof: edits of lines lifted to the text; induction over the lines with the stack of indents.
Theorems: `Ind.C66_strip`, `Ind.C66_stripEnd`, `Ind.C66_again`.

### C67 Indenting changes only leading white space

proved; Indent. Proof: edits of lines lifted to the text; induction over the lines with the stack of indents.
For indenters whose strings are white space and that do not report CURRENT_INDENT (all bundled ones).
Theorems: `Ind.C67_indent`, `Ind.C67_auto`.

### C68 auto_indent agrees with indent

partial; Indent. Proof: the backward search finds the entries of the stack; induction over the lines before.
Violated by the code for lines that open two levels, or that close and open a level; proved for simple lines.
Theorems: `Ind.C68_partial`, `Ind.C68_no_indent`, `Ind.C68_violated_two`, `Ind.C68_violated_close_open`.

### C69 events_with_tokens is the inverse of building

proved; EventsOf. Proof: replaying the slices of the range step by step gives cuts of the tree; a cut with all tokens is the tree. For the exact events: a target is determined by the tree states before and after it, when it pops no more than there is and does something (`target_inj`), and the slices keep the depth (`Lev`, `Steps`).
For a start token that begins a group or is single, and a last token that ends a group or is single.
Theorems: `RB.C69_range`, `RB.C69_builds`, `RB.C69_events`, `RB.C69_events_from`.

### C70 A lexicon finds the leftmost match of the first rule that matches

proved; Re. Proof: an expression is run by backtracking to the list of all ends in their order (`Pat.run`); by induction on the expression the list has exactly the ends of its meaning (`Pat.mat`, with reflexive-transitive closure for the star), and is sorted by preference of the way each match comes about (`ReWay`); locality (`ReAhead`) and shifting (`ReShift`) by the same induction.
Regular expressions without backreferences, conditional and atomic groups; the preferred match is specified by comparing the first choice in which two ways to match differ.
Theorems: `C70_meaning`, `C70_way`, `C70_preferred`, `C70_first_rule`, `C70_none`, `C70_advance`, `C70_lexicon`, `C70_restartable`, `C70_restartable1`, `C70_terminates`.

### C71 JSON texts are transformed to the value they stand for

partial; Json. Proof: mutual induction on the grammar of RFC 8259: each value moves the lexer and the tree builder over its text and appends nodes whose transformed values are the value (`JsonTok`, `JsonStr`, `JsonVal`, `JsonAll`); the patterns of the lexicons are run by the regular expression model (`ReBest`).
Proved for every JSON text without surrogate pair escapes, with numbers as float() computes them; both exceptions are violations by the code.
Theorems: `Json.C71_finishes`, `Json.C71_value_partial`, `Json.C71_edited_partial`, `Json.C71_pair_violated`, `Json.C71_int_violated`.

### C72 Saving and loading a document gives the same text

partial; DocIO. Proof: case analysis on which name each `or` picks (the names of reading and writing are the same); UTF-8, UTF-16 and Latin 1 are shown to give back what they encode, and UTF-8 to begin with no byte order mark unless the text begins with U+FEFF.
Proved when the data has no byte order mark, the text mentions no other encoding and has no carriage returns; the other cases are violations by the code.
Theorems: `DocIO.C72_roundtrip_partial`, `DocIO.C72_utf8_partial`, `DocIO.C72_ascii_partial`, `DocIO.C72_bom_partial`, `DocIO.C72_utf16_violated`, `DocIO.C72_declared_violated`, `DocIO.C72_feff_violated`, `DocIO.C72_cr_violated`.

### C73 The encoding that is used and stored

partial; DocIO. Proof: the chain of `or` picks the one name the priority relation allows.
The reading priority is proved; what is stored, and what is used to write, differ from the documentation.
Theorems: `DocIO.C73_reads`, `DocIO.C73_stored_partial`, `DocIO.C73_writes_partial`, `DocIO.C73_stored_violated`, `DocIO.C73_writes_violated`, `DocIO.C73_hex_violated`, `DocIO.C73_coding_violated`.

### C74 replace() does in a region what str.replace does

partial; Replace. Proof: the loop makes a chain of sorted disjoint changes, by induction together with the specification of `str.replace`; a chain in a region of a text is applied as the region on its own (`updateFrom_shift`).
Proved for non-empty old and regions with a start that is not negative, or negative with the region not reaching the end of the text; otherwise the code violates it (witnesses).
Theorems: `C74_replace_partial`, `C74_replaced_unique`, `C74_undo`, `C74_negative_violated`, `C74_before_violated`, `C74_empty_violated`.

### C75 re_sub() replaces exactly the matches in the region, and trim() removes exactly the trailing blanks

partial; Replace. Proof: the steps of `finditer` give the next matches of the specification (C70), which are a chain; the matches of `[ \t]+$` cover exactly the trailing blanks.
Proved for regions as in C74, and trim for regions that end at the end of a line; otherwise the code violates it (witnesses).
Theorems: `C75_re_sub_partial`, `C75_found_unique`, `C75_undo`, `C75_trim_partial`, `C75_trim_inside_violated`, `C75_negative_violated`.

### C76 cursor methods select what they say

partial; Replace. Proof: case analysis on the end of the cursor; C14 for the lines.
Only has_selection is violated, for a cursor beyond the document.
Theorems: `C76_selection`, `C76_has_selection_partial`, `C76_has_selection_violated`, `C76_select`, `C76_lstrip`, `C76_rstrip`, `C76_strip`, `C76_select_lines`, `C76_select_lines_end`, `C76_move`.

### C77 A word-list regular expression finds the longest word

proved; Longest. Proof: the text is read as an expression of the matching model in one way only; every part of the tuples is either a set of words with different first characters or a set of alternatives with different first characters, so alternatives exclude each other and only optional parts and counts leave a choice, which is greedy.
For non-empty lists; for the empty list see C45; case-sensitive matching.
Theorems: `Rx.C77_longest`, `Rx.C77_match`, `Rx.C77_reads`, `Rx.C77_unambiguous`.

### C78 Translating keys replaces the longest key from left to right

partial; Translate. Proof: The expression of the keys finds the longest key (C77), also with a condition on its end (word edges); the list of matches that `re_sub` replaces (C75) is turned, by induction, into the specification `Translated`, which is unique..
Proved for mappings that are not empty and have no empty key, in regions that RegionOK describes (as for C74), and with whole_words if the region is not cut out of a word. Witnesses: translate({}) raises, whole_words looks at the region only, and a negative start.
Theorems: `C78_translate_partial`, `C78_translated_unique`, `C78_undo`, `C78_nokeys_violated`, `C78_whole_violated`, `C78_negative_violated`.

### C79 CSV texts give their records

partial; Csv. Proof: The steps of the lexer (with the groups of the match, an empty match at the end and a lexicon that consumes) are followed along the text by induction on the table, together with the tree; then C47. Ending: C23 with a measure of position and stack..
Proved for lines that end with \n, where empty lines are left out; ending is proved for all texts. Witnesses: \r\n leaves \r in the fields, an empty line is no record, a lone quote at the end raises IndexError.
Theorems: `Csv.C79_finishes`, `Csv.C79_value_partial`, `Csv.C79_records_partial`, `Csv.C79_unique_partial`, `Csv.C79_crlf_violated`, `Csv.C79_blank_violated`, `Csv.C79_open_violated`.

### C80 Actions for groups, actions that use a lexicon and computed actions give ordered lexemes inside the match

partial; Action. Proof: By induction on the expression the captures of a run are in the order of the groups (`run_chain`); then by mutual induction on the actions and on the depth of nested lexers the lexemes lie within the match, and C19 and C33 apply..
Proved for all languages with such rules whose groups follow each other (C80_repeated: for groups in a repetition the order is wrong). That no exception is raised is proved if an action `using` is only for a group that takes part in every match. Witness: `using` for an optional group that took no part raises.
Theorems: `C80_ordered`, `C80_inside`, `C80_covers`, `C80_no_exception_partial`, `C80_restartable`, `C80_update`, `C80_csv`, `C80_optional_violated`, `C80_repeated`.

### C81 Changes that arrive while a tree is built are not lost

partial; Interrupt. Proof: Invariant of the loop of `build_new_tree`: the text is the old one with one region replaced, and what is left of the tail lies after the region, moved by the offset; each request keeps it (`Composite.edit`), and a round that ends gives the tree by the lemmas of C33. Then induction over the schedule..
Proved for all schedules, if edits that are seen while a tree is built start where at most eleven tokens of the text end before; and for all schedules without that condition for the code without treebuilder.py:277-287. With that part violated: the build continues with a part of the new tree, and its last token is deleted (treebuilder.py:285).
Theorems: `RB.C81_interrupted_partial`, `RB.C81_without_reuse_partial`, `RB.C81_lost_token_violated`.

### C82 English number words are read as the number they stand for

proved; Numbers. Proof: A small machine (`feed`) has the open contexts with what they have counted so far; the lexer with the tree follows it word by word (`GM`: default targets that leave or enter contexts without text are counted as they do not make contexts). Which words are prefixes of each other is checked on the (fixed) lists of words. By induction on the phrase the machine ends with the number. `words` is related to the expression that the code builds by C77..
Theorems: `Num.C82_words`, `Num.C82_spelled`, `Num.C82_writable`, `Num.C82_finishes`, `Num.C82_phrase`, `Num.C82_number`, `Num.C82_unique`.

### C83 Several numbers in a text are detected

partial; Numbers. Proof: The same machine, over several phrases and other characters, at which the lexer goes around the default targets and then skips one character..
Proved if after a word for tens no word follows that begins with a unit. Otherwise violated by the code: twenty seventeen gives [27].
Theorems: `Num.C83_texts_partial`, `Num.C83_violated`.

### C84 The result of the number languages is always a list

partial; Numbers. Proof: From every state the lexer gets ahead (`gm_progress`): some rule matches, or all contexts are left and one character is skipped; by induction on the rest of the text. Each context has a number as value..
Proved for all texts, if IGNORECASE and str.lower() agree on the letters. Violated by the code for a long s (ſix raises KeyError).
Theorems: `Num.C84_finishes_partial`, `Num.C84_list_partial`, `Num.C84_violated`.

### C85 Dutch, German and French number words are read as the number they stand for

partial; NumbersMore. Proof: The word lists of both languages satisfy a finite list of prefix checks; from these, each word is read by exactly the lexicon that knows it, whatever follows. The machine for English then gives the values. Violations: evaluation of the model on the witnesses..
Violated by the code in each of the languages (vijftig gives [5], dreißig [3], soixante-dix [60, 10]). Proved for Dutch and German for all numbers that are written without the misread words, which are exactly the tens 50, 60, 70, 90 (Dutch) and 30, 40, 50, 80, 90 (German) when they stand alone; for French there are only the witnesses.
Theorems: `Num.C85_dutch_partial`, `Num.C85_german_partial`, `Num.C85_spelled`, `Num.C85_dutch_words`, `Num.C85_german_words`, `Num.C85_dutch_violated`, `Num.C85_german_violated`, `Num.C85_french_violated`.

### C86 Reading an INI file gives the dictionary of its sections

partial; Ini. Proof: Lexing ends: from every state at a position the lexer reaches one at a later position, or the end (`stable_step`). Value: the lexer goes through the lines one by one (`go_line`, `go_file`), the tokens of a string are the maximal runs between escapes (`Runs`), stripping the first and last of them strips the string (`runs_value`), and the loop of `root()` is a fold over the lines (`lines_fold`). That the text ends in a comment is seen from the last node of the tree (`stack_end`), which decides between the value and IndexError. Violations: evaluation of the model on the witnesses..
Violated by the code: values end at a colon, an equals sign or a bracket, escaped letters stand for themselves, names of sections that start with a backslash are unescaped, and transform_text raises IndexError for every file that ends in a comment. Proved for all other files; every string can be written as a key or value in them.
Theorems: `Ini.C86_finishes`, `Ini.C86_value_partial`, `Ini.C86_text_partial`, `Ini.C86_writable`, `Ini.C86_comment_violated`, `Ini.C86_colon_violated`, `Ini.C86_key_violated`, `Ini.C86_equals_violated`, `Ini.C86_bracket_violated`, `Ini.C86_letter_violated`, `Ini.C86_name_violated`, `Ini.C86_raises_violated`.

### C87 Caches with one lock call the function once

proved; Caching. Proof: Transition system with one lock; invariant (`DInv`): who is inside has the lock, a thread that runs the function has no value in the cache, what was returned is what is kept, and the calls are counted..
The function is assumed not to use the same cache itself.
Theorems: `Cache.C87_alone`, `Cache.C87_same`, `Cache.C87_result`, `Cache.C87_once`, `Cache.C87_progress`.

### C88 Cached methods and properties call the function once

partial; Caching. Proof: Transition system with a table of locks; invariants: locks and their owners (`MInv`), and, for one tuple of arguments, that a lock that is no longer in the table belongs to an object with a value (`SInv`). Violations: executions with two threads..
Violated by the code: the lock is removed while other threads wait for it, so that two threads can run the function at once for the same arguments. Proved if each object is used with one tuple of arguments (as for properties) and the function raises nothing.
Theorems: `Cache.C88_partial`, `Cache.C88_removes`, `Cache.C88_progress`, `Cache.C88_violated`, `Cache.C88_raise_violated`.

### C89 Lexicons are single objects

partial; LexiconStore. Proof: Invariant of the tables (`Inv`): the lexicons without argument are exactly those in the tables of the descriptors, the others those in the tables of derived lexicons; what is in the tables stays..
Proved with Python's equality of arguments. Violated: the argument of lexicon(True) can be 1, and equal lexicons have different hashes.
Theorems: `Lex.C89_access`, `Lex.C89_apart`, `Lex.C89_none`, `Lex.C89_derived`, `Lex.C89_kept`, `Lex.C89_replaced`, `Lex.C89_distinct`, `Lex.C89_equal`, `Lex.C89_argument_violated`, `Lex.C89_hash_violated`.

### C90 A dispatcher calls the method for the key

proved; Dispatch. Proof: The merged table has for each key the name that the first class registers (`merged_eq`), by induction on the method resolution order..
Theorems: `Disp.C90_call`, `Disp.C90_error`.

### C91 The cache for files gives no old values

partial; FileCache. Proof: What is kept was read from a version that is not older than the version with the time that is kept, and not newer than the present one (`run_cache`)..
Proved for times other than -1, for which the code raises UnboundLocalError.
Theorems: `FileC.C91_partial`, `FileC.C91_violated`, `FileC.C91_stale`.

### C92 Style sheets include what they import

partial; StyleSheet. Proof: Induction on the expansion of the imports: from some depth of calls on, the code gives the same rules (`expands_ok`); the set of file names only matters for files that are imported twice. The circle is followed at every depth, by induction..
Violated by the code: an import without media query raises NameError, circular imports with a media query do not end, and imports in nested blocks are followed although they are not allowed. Proved for imports with a media query that are not circular.
Theorems: `Sheet.C92_partial`, `Sheet.C92_once`, `Sheet.C92_off_partial`, `Sheet.C92_violated`, `Sheet.C92_circular_violated`, `Sheet.C92_off_violated`, `Sheet.C92_delimiter`.

### C93 Filtering conditions leaves out the conditions that do not hold

partial; StyleSheet. Proof: `filter` keeps exactly the entries for which the test holds..
Violated by the code for conditions in other conditions, and for the file name, which is lost.
Theorems: `Sheet.C93_partial`, `Sheet.C93_commute`, `Sheet.C93_nested_violated`, `Sheet.C93_filename_violated`.

### C94 A style sheet is read as the rules it stands for

partial; CssLang, CssLangBad. Proof: The lexer is followed over each part of the text with the items that the methods get (`Go`), by mutual induction over values and selectors; for each piece of the sheet the last event and the contexts that are open there are kept (`Piece`), which decides whether the events end in a comment..
Violated by the code: strings in quotes raise an exception, at-rules with nested rules swallow what follows, a comment at the end raises IndexError, and `transparent`, slashes and `||` are read wrongly. Proved for all other style sheets of the grammar in Spec/CssLang.lean, which has no escapes.
Theorems: `CssL.C94_finishes_partial`, `CssL.C94_value_partial`, `CssL.C94_text_partial`, `CssL.C94_comment_violated`, `CssL.C94_quoted_violated`, `CssL.C94_transparent_violated`, `CssL.C94_slash_violated`, `CssL.C94_column_violated`, `CssL.C94_nested_violated`.

### C95 Deleting a node of a tree removes that node and nothing else

partial; NodesDelete. Proof: The loop from the node upwards is shown to do the same as a recursion from the root downwards (`loop_inner`); the bisection for a context without tokens always goes to the left and finds the index exactly when it is one of the halves of the number of children (`emptyLoop_hit`, `emptyLoop_miss`)..
Violated by the code: the index of a context that became empty is looked up by its position, which is then 0, so another child (the first) is removed, unless the index is n/2, n/4, … of n children. Proved for exactly those cases, and that an empty context is left in all others.
Theorems: `Nd.C95_delete_partial`, `Nd.C95_tokens`, `Nd.C95_left_empty`, `Nd.C95_sibling`, `Nd.C95_violated`.

### C96 Ancestors, siblings and ranges between nodes follow from the places of the nodes

partial; Nodes. Proof: Nodes are paths, ancestors are proper prefixes. Paths of two tokens part at one index (`paths_part`); the search for the first common ancestor passes over the contexts below that point (`trailLoop_skip`). The tokens of the range are those of the slices (as for C31)..
Violated by the code: the range to an earlier token of the same tree is None, and a context that is no ancestor, but has a parent that is, ends the iteration of ancestors(upto). All else is proved.
Theorems: `Nd.C96_ancestors`, `Nd.C96_ancestors_upto`, `Nd.C96_ancestors_other_partial`, `Nd.C96_upto_violated`, `Nd.C96_simple`, `Nd.C96_common_ancestor`, `Nd.C96_siblings`, `Nd.C96_before`, `Nd.C96_range_partial`, `Nd.C96_range_violated`.

### C97 Tokens are equal when their text, action and lexicons are equal

proved; Nodes. Proof: Induction on the length of the path: the loop compares the lexicons from the inside out and may stop at a common ancestor, above which all is the same..
Theorems: `Nd.C97_state_matches`, `Nd.C97_equals`, `Nd.C97_lexicons`.

### C98 Queries navigate like the nodes do

proved; NodesQuery. Proof: From C28 and C96; nodes of a tree without empty contexts and tokens are never false..
Left, right and the siblings of the root raise an exception, as documented for the nodes; the theorem is about nodes that have a parent.
Theorems: `Nd.C98_first_last`, `Nd.C98_parent`, `Nd.C98_neighbours`, `Nd.C98_siblings`, `Nd.C98_select`, `Nd.C98_append`.

### C99 A pattern that is searched as a plain string matches that string only

partial; ToString. Proof: The two passes over the text are functions with a state; for each escape of the documentation (`Escape`) the first pass leaves only letters and digits (`strip_escape`), and the second gives its character (`esc_sound`, `esc_complete`)..
Violated by the code: with the VERBOSE flag a lexicon searches for a string that the pattern does not match; an escaped hyphen or blank and an unescaped closing bracket give None although there is one string. Proved without these.
Theorems: `ToS.C99_sound`, `ToS.C99_unique`, `ToS.C99_complete_partial`, `ToS.C99_escape`, `ToS.C99_needle_partial`, `ToS.C99_violated`, `ToS.C99_verbose_violated`.

### C100 Functions that make rule items choose what they say

partial; RuleHelpers. Proof: Calls with known arguments are computed; the tables of `dselect` and `findmember` are related to the mapping by induction (`enumKeys_lookup`, `find_loop`), and the numbers that `gselect` computes to the nested items (`evaluate_nested`)..
Violated by the code: gselect with only None raises, and ifarg takes the empty string and 0 for no argument. All else is proved.
Theorems: `RH.C100_ifeq`, `RH.C100_ifmember`, `RH.C100_ifgroup`, `RH.C100_gselect_partial`, `RH.C100_dselect`, `RH.C100_findmember`, `RH.C100_derive`, `RH.C100_arg`, `RH.C100_ifarg_partial`, `RH.C100_gselect_violated`, `RH.C100_ifarg_violated`.

### C101 A string quoted for CSS is read back as that string

partial; Quote. Proof: The reader of strings is the algorithm of the CSS specification as a function with a state (Spec/Quote). An escape ends at the blank after its digits (`read_escape1`); then induction on the string..
Violated by the code: `12` and `-` get no quotes although they are no identifiers, and newlines are not escaped. Proved for strings without newlines, and for names that begin like an identifier.
Theorems: `Quo.C101_escape`, `Quo.C101_quoted_partial`, `Quo.C101_plain_partial`, `Quo.C101_violated`, `Quo.C101_newline_violated`.

### C102 A text format that is written as CSS and read again is the same

partial; TextFormat. Proof: Each function that reads keeps an invariant (`Known`). Each part that is written sets its attributes in the format that is read (`seg_color` ... `seg_weight`); together they give the format that is read again (`read_write`), which is compared attribute by attribute (`back_eq`)..
Violated by the code in many ways: names of families that get no quotes, system fonts, percentages of stretch, zero, no decoration, stale units and angles are lost. C102_round_partial says exactly which formats are kept; C102_words which attributes always are.
Theorems: `TF.C102_round_partial`, `TF.C102_words`, `TF.C102_violated`, `TF.C102_stale_unit_violated`, `TF.C102_empty_violated`.

### C103 A complete HTML document shows the text in the base format

partial; FullHtml. Proof: A reader of HTML items (tags with attributes in quotes, text with character references, the rule about the newline after `pre`) is in Spec/FullHtml; it is run symbolically over the template and the pieces (`shown_full`, `html_text`)..
Violated by the code: a base format with quotes ends the style attribute, and a newline at the start of the text is not shown. Proved without these.
Theorems: `FH.C103_shown_partial`, `FH.C103_document_partial`, `FH.C103_quote_violated`, `FH.C103_newline_violated`.

### C104 Inline CSS is read as the properties of the format

proved; InlineCss. Proof: The reader of declarations keeps whether it is in a string and whether the last character was a backslash; a value is scanned without ending (`scan`), so that the declarations are read one by one (`read_join`). The order: each property of a format sets other attributes, so setting them commutes (`read_perm`)..
For values whose strings are closed and that have no semicolon outside strings; C104_family and C104_words show that the values of text formats are such.
Theorems: `IC.C104_inline`, `IC.C104_family`, `IC.C104_words`, `IC.C104_order`.

### C105 Themes that are added, removed and copied

partial; Themes. Proof: Invariant of all sequences of calls (`reach_inv`): no language is twice in a dictionary, and each cache is what `add_theme` makes for some theme and flag. Then the loop of `copy_themes` by induction (`copy_loop`)..
Violated by the code: copying themes of a formatter to itself removes them all, a base format that is None is not copied, and copying from a SimpleFormatter raises an exception. All else is proved.
Theorems: `Thm.C105_add`, `Thm.C105_remove`, `Thm.C105_copy_partial`, `Thm.C105_copy_formats_partial`, `Thm.C105_copy_violated`, `Thm.C105_base_violated`, `Thm.C105_simple_violated`.

### C106 A format context is told of each change of theme in time

partial; FormatContext. Proof: The generators are functions over traces of switches and ranges; forgetting the switches gives the functions of C39 (`ranges_merge`, `ranges_fix`, `ranges_traceU`), forgetting the ranges gives the changes of the themes (`switches_steps`). A trace is split at a switch to see what was yielded before (`fix_split`, `merge_split`)..
Violated by the code: the last range before a switch is always yielded after it, because merge_adjacent (and fix_boundaries, for a part of the text) hold a range back. All else is proved; C106_late_partial says exactly how late ranges are.
Theorems: `FC.C106_ranges`, `FC.C106_switches`, `FC.C106_theme`, `FC.C106_late_partial`, `FC.C106_violated`, `FC.C106_always_violated`.

### C107 Indenting CSS gives each line its level of brackets

proved; Indenter. Proof: The info of a line is computed in closed form (`info_early`, `info_late`): so many indents, dedents at the start and dedents at the end, with the level after the line in terms of these. The stack is always the list of the multiples of the indent string (`stack_push`, `stack_pop`), and induction over the lines (`loop_lines`). The runs of tokens: induction (`run_groups`)..
The rest of a line is the line without its indent; a line with only white space is kept after the new indent (see C59).
Theorems: `Ind.C107_levels`, `Ind.C107_balanced`, `Ind.C107_runs`, `Ind.C107_css`.

### C108 Comparing blocks and cursors

partial; TextRange. Proof: A line is determined by its position (`line_stop`); the rest is linear arithmetic and C13..
Violated by the code: cursors with the same position and different ends are <= in both directions, but not equal; equal ranges have different hashes. Proved for blocks.
Theorems: `TR.C108_eq`, `TR.C108_order_partial`, `TR.C108_lines`, `TR.C108_first_last`, `TR.C108_violated`, `TR.C108_hash_violated`.

### C109 Selecting rules for lxml elements

partial; LxmlElement. Proof: Each step with wrappers agrees with the step for elements, or raises where the step for elements finds no ancestor (`step_agrees`, `anc_agrees`); induction over the combinators, the lists and the rules; then C54..
Violated by the code: select_lxml_element always raises, and matching raises AttributeError when it goes up beyond the root element. Proved: every answer that is given is right; selectors with sibling combinators only are always answered; exactly when a missing ancestor raises.
Theorems: `Lx.C109_match_partial`, `Lx.C109_siblings`, `Lx.C109_select_partial`, `Lx.C109_descendant_violated`, `Lx.C109_child_violated`, `Lx.C109_query_violated`.

### C110 Validating a lexicon finds wrong rules

partial; ValidateLexicon. Proof: The loop with its state of defaults seen is equivalent to a recursive predicate (`run_static`, `GF`), and that to the specification (`gf_iff`). Evaluated rules: C44 gives a variation that covers the outcome, and what covers a target is one (`covers_target`). Skipped rules: both loops remember the same patterns (`used_run`)..
Violated by the code: targets after skip or an empty group action are not looked at, actions in the place of targets pass, a default action that is false for Python is forgotten, and a bare variable raises. Proved: exact for rules that need no evaluation; evaluated targets are numbers and lexicons outside of these cases; warnings are exactly for the rules that are skipped.
Theorems: `VL.C110_static`, `VL.C110_targets_partial`, `VL.C110_skipped`, `VL.C110_skip_violated`, `VL.C110_group_violated`, `VL.C110_using_violated`, `VL.C110_false_action_violated`, `VL.C110_raise_violated`.

### C111 Introspection lists what a language has

partial; Introspect. Proof: The list of names is a sorted set of those before `Language` (`mem_sortedSet`, `pairwise_sortedSet`). `flatten` is compared with evaluation by mutual induction over rule items (`icov`, `icov_rule`), and with `variations` the same way (`isub`)..
Violated by the code: a lexicon replaced with None in a subclass is listed as None and rule_items raises, lexicons of a class after Language are not listed, and a call among the items of a select raises. Proved outside of these cases, also for rules with skip.
Theorems: `Isp.C111_lexicons_partial`, `Isp.C111_items_partial`, `Isp.C111_only_partial`, `Isp.C111_actions_partial`, `Isp.C111_languages_partial`, `Isp.C111_override_violated`, `Isp.C111_mixin_violated`, `Isp.C111_call_violated`.

### C112 A document is saved to and loaded from the file its url names

partial; SaveLoad. Proof: `localfile` is compared with a relation between urls and names by splitting at the first colon (`splitAt_some`, `scheme_of_has`), the host (`netloc_nil`) and the question mark (`path_split`). Saving and loading follow the branches of the code, with the outcome of opening and writing as a parameter..
Violated by the code: percent signs in a file: url are not decoded and a question mark cuts it off, names like C:/a.txt are refused, a save() that raises has changed the url and the encoding already, and the old contents are lost if writing fails. Proved: exactly which file is used, and everything about saving without an error.
Theorems: `SL.C112_localfile`, `SL.C112_names`, `SL.C112_save`, `SL.C112_error_partial`, `SL.C112_load`, `SL.C112_percent_violated`, `SL.C112_query_violated`, `SL.C112_colon_violated`, `SL.C112_attributes_violated`, `SL.C112_lost_violated`.

### C113 The token at a position of a document

partial; TokenAt. Proof: `docToken_list` rewrites `token` to a function on the list of tokens: by C26 and C27 the token found is the first one that ends after the position, by C28 the previous token is the last one before it in the list. The rest is arithmetic on the ordered list..
Violated by the code: at the end of the last token None is returned (in every document), a token that ends with the newline is returned for the next line, and a token of the block that is to the left but does not touch the position is not found. Proved: the token around the position, and the other parts without these cases.
Theorems: `C113_starts`, `C113_ends_partial`, `C113_block_partial`, `C113_none_partial`, `C113_some_partial`, `C113_end_violated`, `C113_block_violated`, `C113_left_violated`.

### C114 The transform result is that of the current transformer for the latest text

partial; WorkerTransform. Proof: A transition system with one step for every access to a shared variable; `Inv` says for every place in `process()` what the states, the mark and the cache are when only one thread is there. The violations are runs of the computable step function. `C114_ends_partial` uses a distance that every step of the thread decreases..
Violated by the code: an update() during a transform makes get_transform return the old result, or two threads run the same transformer and one ends with a KeyError and its result is lost; a transformer set at the wrong moment is never run, or get_transform returns None before it has run; and setting the first transformer while the tree is built starts a second build of the same tree; and an interrupted run can replace the stored result by none. Proved: all of it for executions in which process() is not started while another one is running.
Theorems: `WT.C114_result_partial`, `WT.C114_noerror_partial`, `WT.C114_ends_partial`, `WT.C114_stale_violated`, `WT.C114_raise_violated`, `WT.C114_lost_violated`, `WT.C114_early_violated`, `WT.C114_two_violated`, `WT.C114_none_violated`, `WT.C114_interrupted`.

### C115 Replacing the transformer of a worker

partial; SwitchTransformer. Proof: Histories are an inductive relation with the transformers seen since and before the last edit; the invariant is that the caches of the former are right (`C48_invalidate`, `C48_cached`) and those of all that were never set are empty..
Violated by the code: only the current transformer is told which contexts changed, so a transformer that comes back after an edit uses old values. Proved: the result is right after every step of every history in which no transformer comes back after an edit it missed.
Theorems: `Sw.C115_result_partial`, `Sw.C115_set_partial`, `Sw.C115_back_violated`.

### C116 The tree of an XML text

partial; Xml. Proof: Per piece, the expression of the right rule takes exactly the piece with the expected groups and all earlier rules fail (`XmlPat`, by the first character or by the shape); these steps are chained with the views of the open contexts as state, by mutual induction on pieces; comments by induction on the distance to their end, with the invariant that no marked word contains a dash that is not followed by a word character..
Violated by the code: a web address at the end of a comment takes the closing dashes; an apostrophe in a processing instruction opens a string that runs past its end; spaces that are not XML white space count as white space. Proved for all pieces without these: the lexer finishes and the tree is the expected one.
Theorems: `Xml.C116_tree_partial`, `Xml.C116_comment_violated`, `Xml.C116_space_violated`, `Xml.C116_pi_violated`.

### C117 The encoding found in an XML text

partial; XmlEncoding. Proof: The tree of the declaration is that of C116; children of the root that are complete stay in place whatever the lexer does later (`Has.run` in `TreePrefix`, induction on the rounds); the query is then evaluated on the views, where all tokens before the attribute are quiet..
Violated by the code: values in single quotes are skipped, so the value of a later attribute is returned, or nothing; and an attribute of any processing instruction counts. Proved: with double quotes the declared encoding is found before any further text; none is found in well-formed texts where no processing instruction has such an attribute.
Theorems: `Xml.C117_declared_partial`, `Xml.C117_none_partial`, `Xml.C117_other_violated`, `Xml.C117_single_violated`, `Xml.C117_elsewhere_violated`.

### C118 The encoding found in a plain text and in a stylesheet

partial; FindEncoding. Proof: The expression is matched piece by piece with its group (`PC`), after moving the alternatives outwards, which does not change the order of the matches (`run_dist`, `run_assoc`); no earlier position has the literal key, so the search ends there (`search_one`)..
Violated by the code: `coding: xxx` is not recognised; in stylesheets a declaration in a comment or in the middle counts, and names with other characters than letters, digits, `-` and `_` are not found. Proved: the first `encoding: xxx` or `encoding="xxx"` of any text is found, and nothing in a text without the word; the declaration at the start of a stylesheet is found if its name has only those characters, and nothing in a text without `@charset`.
Theorems: `FEnc.C118_told_partial`, `FEnc.C118_untold`, `FEnc.C118_css_partial`, `FEnc.C118_css_none_partial`, `FEnc.C118_coding_violated`, `FEnc.C118_css_comment_violated`, `FEnc.C118_css_name_violated`.

### C119 A new document has the tree and the result of its text

partial; DocInit. Proof: After an update both hold, by cases on the lexicon and the transformer (`update_ok`); the constructor ends with an update in the cases of the theorem..
Violated by the code: with a worker that has a root lexicon the text is not tokenized if none is given, and a given transformer is ignored; with a used worker and an empty text the old result stays; a new document with an empty text has no result. Proved: with a lexicon and a text all is right, whatever the worker did before; without a worker the tree is right; and all later changes keep tree and result right.
Theorems: `DI.C119_new_partial`, `DI.C119_tree_partial`, `DI.C119_stays`, `DI.C119_transformer`, `DI.C119_lexicon_violated`, `DI.C119_transformer_violated`, `DI.C119_result_violated`, `DI.C119_empty_violated`.

### C120 The tags of an HTML text are read as the elements they are of

partial; Html. Proof: For each kind of tag it is shown, with the lemmas about expressions of C116, which rule of the lexicon is the first one that matches at the place of the tag, what it takes and what its groups are; the text after the tag and the rules of the embedded languages are arbitrary. The witnesses are evaluated..
Violated by the code: <colgroup> is read as <col with attributes, <BR> inside an element opens a context, <STYLE> in the document leads to nothing, <script-x> is read as a script, </x:br> closes nothing. Proved for names that do not begin with a void name, style or script, and have no prefix; for void names that are in lower case inside elements; and for style and script in lower case.
Theorems: `Html.C120_open_partial`, `Html.C120_open_attrs_partial`, `Html.C120_close_partial`, `Html.C120_void_partial`, `Html.C120_void_attrs_partial`, `Html.C120_void_close_partial`, `Html.C120_attrs_end`, `Html.C120_raw`, `Html.C120_raw_attrs`, `Html.C120_style_end`, `Html.C120_script_end`, `Html.C120_prefix_violated`, `Html.C120_case_violated`, `Html.C120_style_violated`, `Html.C120_script_violated`, `Html.C120_close_violated`.

### C121 The tree of a TOML text

partial; Toml. Proof: As C116, but for one fixed text, because the word boundary before `true` looks back: the state has what is left of the text, and it is known what is before it (`Free`). Which rule takes a value is decided by the first character and by shape lemmas (`pfail_stamps`, `pfail_radix`, `Calm`: no digit after the blank behind a date); values, arrays and inline tables by mutual induction, where the rule for `]` takes the blanks after it and the one for `}` after a value leaves two contexts. Comments: every match of a special rule would have one of the special texts in it (`HasOne`) and cannot pass the newline, so the text up to the end of the line is one token. Multi-line strings: no three quotes before the end (`drop_three`)..
Violated by the code: a dot directly after a quoted part of a key is invalid, the escape \UXXXXXXXX is invalid, and a fourth quote at the end of a multi-line string is invalid. Proved for all documents without these, with comments and multi-line strings (but no addresses, URLs or alert words in comments): the lexer finishes and the tree is the expected one.
Theorems: `Toml.C121_tree_partial`, `Toml.C121_dot_violated`, `Toml.C121_escape_violated`, `Toml.C121_quote_violated`.

### C122 find_context returns the youngest context at the position

proved; FindContext. Proof: At most one child of a context spans the position and the binary search finds it (`find_only`, from `find_step`); what spans the position lies only in children that do so (`spans_at`); the loop by induction on the size of the node..
Theorems: `C122_find_context`.

### C123 A switch of an instance is on exactly inside its with blocks

partial; Switch. Proof: Invariant over all events: every open block of an instance that is never deleted has its entry in the dictionary, no two entries share a switch, and the number in a switch is the number of open blocks of its instance..
Violated by the code: equal instances share one switch, which is lost when the first of them is deleted, and asking for the attribute on the class (which raises a TypeError) replaces the dictionary, so that all switches that are on are off. Proved for instances that are only equal to themselves, if the attribute is not asked for on the class.
Theorems: `Swi.C123_switch_partial`, `Swi.C123_equal_violated`, `Swi.C123_class_violated`.

### C124 The encoding found in an HTML text

partial; HtmlEncoding. Proof: The trees are described by the relations `MetaNodes` (the `meta` elements in document order) and `Reads` (the nodes of their attributes). The loop over the nodes is the loop over the attributes (`reads_loop`), which without `charset` is: the last encoding in `content`, if there is the type (`loop_plain`). The search in `content` is that of the regular expression, with `search_one` as for C118..
Violated by the code: with a value in single quotes or without quotes, the value of the next attribute in double quotes is taken; an empty value gives the quote; META in upper case is not seen; quotes after charset= in content are not allowed for. Proved for all trees with meta elements of which the attributes are in double quotes and not empty. The step from the text to the tree is not proved here (only evaluated, in the witnesses and the example); C120 has the tags.
Theorems: `Html.C124_declared_partial`, `Html.C124_none_partial`, `Html.C124_single_violated`, `Html.C124_bare_violated`, `Html.C124_empty_violated`, `Html.C124_case_violated`, `Html.C124_quoted_violated`.

### C125 The position and the end of a range

proved; RangeBounds. Proof: `Rng.pos` and `Rng.stop` (Model/RangeBounds) follow the trails from the ancestor. `bounds_eq` goes through the branches of `from_tree`; the shortened trails are put together again with `commonLoop_spec` and `at_append`, and the searches are `find?` on the list of tokens..
Proved for every range from_tree returns, for all trees without empty contexts and with ordered tokens.
Theorems: `C125_bounds`, `C125_covers`.

### C126 The classes that belong to a language

partial; Sister. Proof: Classes, modules and their attributes are a structure (Model/Sister); `Classes.Ok` (Spec/Sister) is what Python ensures for `mro()`. `tried`: a language has `Language` and `object` after it, so it is not among the two classes that `mro()[:-2]` leaves out. `loop_some` and `loop_none` are inductions over the classes tried..
Proved for the language and its parents that are languages. A parent that is not a language is not tried when it is the last base.
Theorems: `Sis.C126_own`, `Sis.C126_parents_partial`, `Sis.C126_sound`, `Sis.C126_none`, `Sis.C126_kind`, `Sis.C126_io`, `Sis.C126_indent_transform`, `Sis.C126_mixin_violated`.

### C127 Indenting LilyPond gives each line its level of brackets

partial; LilyIndent. Proof: `lilyEvents` (Model/LilyIndent) with `indentEvents` and `indentText`. A line is a list of opening, closing and other tokens (Spec/LilyIndent). `late_tokens`: after the first other token, other tokens do nothing; `early_tokens` counts the closing brackets at the start; `loop_any` is the induction over the lines for any events of that form. The tokens of each line are a parameter..
Proved for all texts where each line begins in LilyPond. A closing bracket after Scheme at the start of a line counts for that line.
Theorems: `Ind.C127_levels_partial`, `Ind.C127_scheme_violated`.

### C128 The registry by section

proved; Sections. Proof: Induction from the end of the registry: adding an entry with a new key extends the dictionary of its section, or appends a section (`secPut_map`); `eraseDups` of the Lean library gives each section once..
For all registries; that no two entries have the same key is what a dictionary ensures.
Theorems: `Reg.C128_by_section`, `Reg.C128_found`.

### C129 Formatting a document yields its selection

partial; FormatDocument. Proof: `formatDocument` (Model/FormatDocument) is `formatText` of C39 with the bounds of the cursor of C76; both bounds together are the text of the cursor..
Violated by the code for a selection between the tokens of two contexts, as C39. Proved for selections that touch a token with one theme, for the whole document, and without a selection.
Theorems: `C129_selection_partial`, `C129_nothing`, `C129_violated`.

### C130 The rules of a theme for an action

partial; ThemeElement. Proof: The class attribute is split into the names in lower case (`split_class`); with more classes at least the same selectors match (`match_mono`), and to the left of the last selector there is only the parent, which is the same for all actions (`comb_kid`)..
Violated by the code for rules with an attribute selector on the text of `class`: the documentation says that the order of the names does not matter. Proved for all rules without such a selector. Lower case is made per character.
Theorems: `Css.C130_rule`, `Css.C130_below_partial`, `Css.C130_order_violated`.

### C131 The rules of a theme for a role and a state

partial; ThemeElement. Proof: `match_mono` again, with more pseudo classes, pseudo elements or classes; the element has no parent (`comb_root`)..
States and the rules for one role or state: proved. A rule for the window is for every role, but not with an attribute selector on the text of `class`.
Theorems: `Css.C131_state`, `Css.C131_window_partial`, `Css.C131_only`, `Css.C131_window_violated`.

### C132 Combining style sheets

partial; SheetSum. Proof: `styles`, `atrules` and the names distribute over `++`; the sum of more sheets by induction. The order of the set is a parameter of which only the members are known..
Violated by the code: the name of a file imported with a condition is there twice, and the names are in the order of a set. The rules, and which names there are, are proved for all sheets.
Theorems: `Sheet.C132_rules`, `Sheet.C132_filenames_partial`, `Sheet.C132_theme`, `Sheet.C132_twice_violated`, `Sheet.C132_first_violated`.

### C133 The printed picture of a tree

proved; Dump, DumpShape. Proof: Induction over the tree: the lines that `dump` prints at a path and a depth are the picture of the node, drawn without paths, with the two prefixes of the path before its first and its other lines (`dump_eq`). The picture determines the tree, as a line that begins with an arm begins the next child (`hang_inj`)..
The text of a node itself (`repr`) is a parameter.
Theorems: `Dump.C133_picture`, `Dump.C133_lines`, `Dump.C133_shape`, `Dump.C133_styles`.

### C134 Events are the same only with identical lexicons

proved; SameEvents. Proof: Induction over the lexicons pushed: tuples that compare equal have the same length, so that `zip` leaves nothing out..
Lexemes are compared as values. It says why the model of the tree builder may use equality of events.
Theorems: `Ev.C134_same`, `Ev.C134_needed`.

### C135 Picking from the results of a query

proved; QueryPick. Proof: Induction over the results, with the index of the next result to be yielded (`isliceLoop_get`)..
`itertools.islice` is modelled by the loop its documentation gives.
Theorems: `Qp.C135_bool`, `Qp.C135_count`, `Qp.C135_pick`, `Qp.C135_pick_last`, `Qp.C135_slice`, `Qp.C135_slice_end`, `Qp.C135_first`, `Qp.C135_refused`.

## Disagreements between the code and the properties

Each of these is the subject of a theorem, unless marked with (*): those were found by reading only.

* `Changes.add`: the start of the merged region never decreases; a first request with `removed=None` is handled (C32).
* `_update_cursors`: with several changes in one block, positions of one change are compared with coordinates of another (C12).
* An overlap error leaves the pending requests in place, so the document is poisoned (C05).
* The lexer loops forever when default targets or empty matches pop at the root or circle without progress (C23); the detection of circular targets misses circles of targets that enter two lexicons or more, because it forgets all states whenever one is seen again that enters no lexicon (`C23_violated_bounded`). It skips a character in circles of empty matches that enter lexicons (C20).
* `check_default_target` says nothing when the first context is left (C61), and calls a long chain circular.
* `Range.from_tree` gives a wrong range when no token is touched (C31, C39, C129).
* `get_bom_encoding` takes UTF-32-LE for UTF-16-LE (C41).
* `merge_adjacent` raises `TypeError` with its default factory (C38).
* `object_locker` forgets a lock while other threads wait for it (C37).
* `TreeBuilder.rebuild`: the test and set of `busy` is not atomic (C34). `Worker.process`: an earlier run resets the state of the next (C35).
* `undo()` and `redo()` never announce that they made undo or redo unavailable (C10).
* `words2regexp([])` matches the empty string (C45).
* `transform_text`: `IndexError` for text that ends in a context without a method, other values than `transform_tree` with untransformed contexts (C47). `invalidate_node`: `KeyError` (C48).
* `format_ranges` with several themes and a part of the tree (C39).
* `Observable.emit` with functions that disconnect (C36).
* Rule items: calls chosen by a select, delegates and patterns (C43), variations with `skip` (C44).
* `is_not.in_range` is not the complement of `in_range` (C51).
* `Style.properties`: `!important` of the declaration seen first is not recorded; empty values and preludes raise (C53).
* `match_selectors` does not backtrack; `*` is false; `[attr=""]` matches everything (C54).
* `get_rgba_color` drops components that are zero, and floors percentages of alpha (C55).
* Text formats with explicit `None` (C56), the unit of a size word and size zero (C64).
* A standard action can be seen by another thread before it has its name and parent; the names `_name` and `_parent` (C57).
* The fallback of an empty registry is not used; the file name does not have priority over the mime type (C58).
* Lines without text get more white space at each `indent`, and keep what `increase_indent` added (C59, C60).
* `auto_indent` and `indent` disagree on lines that open two levels or close and open one (C68).
* `replace` with an empty `old` and `count=0` never ends; with a negative `start`, `replace` and `re_sub` insert the new text without removing the old one at the end of the document, or in the wrong place if `start` is before the text (C74, C75). `trim` with an `end` within a line removes blanks that are not trailing (C75). `has_selection` is true for a cursor wholly beyond the document (C76).
* `translate({})` raises a KeyError for the empty match; with `whole_words`, the ends of the region count as ends of words (C78).
* (*) `LxmlElement.get_parent` is never `None`; the column combinator is handled as the sibling combinator; the specificity of a rule is the highest of its prelude, not that of the selector that matches.
* (*) `get_string` in `css.py` uses an undefined name. `StyleSheet.from_css` uses an undefined `self` for conditional imports, and circular conditional imports recurse forever.
* (*) `color2hex` raises for channels that are floats.
* (*) `Transformer.interrupt` is lost when it comes between the start of the job and the reset of the flag.
* (*) Edits with `undo_redo_enabled=False` make earlier undo entries wrong.
* Incremental rebuilding (C33) is wrong for languages with a lookahead over more than ten tokens, with lookbehind (a reused token is compared by text, action and context only, not by the target of its rule), with a `SubgroupAction` that drops the start of a match; and `replace_tree` does not store a new root lexicon that compares equal to the old one (a variant derived with another argument).
* `Json` (C71): a character written as a pair of `\u` escapes becomes two lone surrogates; integers are computed with `float()` and lose precision (9007199254740993).
* A UTF-16 file with a byte order mark is saved without the mark, and then read as UTF-8 (C72). An encoding that is specified is used to write, but on reading the one mentioned in the text wins (C72). U+FEFF at the start of a text, and `ÿþ` at the start of Latin 1 data, are lost (C72).
* `decode_data` returns None when the default was used, and the mentioned encoding when a byte order mark was used (C73). With a mentioned name that is not known, saving skips the default of the language (C73). A text that mentions `hex` or another codec that is not for texts can not be loaded (C73). `coding: x` is not found by `find_encoding`, although it is documented (C73).
* `Csv` (C79): `\r\n` leaves `\r` in the fields, empty lines are left out, and a quote at the end of the text raises IndexError.
* `using` for a group that took no part in the match raises TypeError, because the text is None (C80).
* A change that is seen while a new tree is built, and starts after more than eleven tokens of that tree, makes the tree lose the last token that was to be kept (`del context[-1]`, `treebuilder.py:285`; C81).
* `English` numbers: after a word for tens a unit is also found at the start of a longer word: `twenty seventeen` gives [27] (C83). A long s (`ſix`) matches because of IGNORECASE, but is not found in the dictionary: KeyError (C84).
* `Nederlands`, `Deutsch`: tens that begin with a unit are taken for that unit: `vijftig` gives [5], `dreißig` gives [3]. `Français`: `soixante-dix` gives [60, 10], because `_TO19[1:10]` is used where `_TO19[10:]` was meant (C85).
* `Ini` (C86): a value ends at `:`, `=` or `[` (`url = http://x` gives `http`, `a = x[1]` starts a section); of a key with a colon only the last part is used; the escape `\n` gives `n`; `[\foo]` gives the section `f`, and `[\]` raises IndexError. `transform_text` raises IndexError for every file that ends in a comment, with or without a line end after it.
* `object_locker` (C37, C88): the lock is removed from the table when the thread that made it is ready, although others wait for it. So a cached method can run twice at once for the same object and arguments, and return different objects: `lexicon('a')` in two threads can give two lexicons.
* `Lexicon` (C89): equal lexicons have different hashes; `lexicon(True)` after `lexicon(1)` has the argument 1.
* `file_cache` (C91): for a file with the time −1 an UnboundLocalError is raised.
* `StyleSheet.from_css` (C92): an `@import` without media query raises NameError, because there is no variable `self` (`css.py:248`); circular imports with a media query do not end; imports in nested blocks are followed although imports are not allowed; a delimiter before the name raises AttributeError.
* `StyleSheet.filter_conditions` (C93): conditions in other conditions are not filtered; the result has lost the file name.
* Not stated as properties: the regular expressions of `Csv` take exponential time on some texts; `Context.height` counts an empty nested context one too deep; `build_tree` in `transform_text` loses the tokens of the event that enters a context without transform; `fix_boundaries` fails for named tuples.
* CSS texts (C94): a string in quotes raises an exception (`css.py:1109-1119`, `1195-1205`); an at-rule with nested rules swallows what follows (`lang/css.py:217-226`); a comment after the last rule gives IndexError, as in C47; `transparent` is a value without a colour; a slash in a value ends the declaration; `a||b` is read as one selector. Not modelled as theorems: `1e3` is a number with the unit `e3`, `url( a )` keeps its spaces, `a/**/.b` is read as a descendant.
* `Node.delete` (C95): deleting the only node of a context can remove the first sibling of that context instead of the context, because the generator `ancestors_with_index` computes the index of the context after it was made empty, when its position is 0.
* `Token.range` and `common_ancestor_with_trail` (C96): None for an earlier token of the same tree, although the documentation says so only for a token of another tree. `Node.ancestors(upto)` (C96): a context that is not an ancestor, but whose parent is, ends the iteration.
* A lexicon with one literal pattern and `re_flags=re.VERBOSE` searches for the text of the pattern with its blanks and comments (C99). `to_string` gives None for `\-`, `\ ` and `]`. The comment in `replace_escapes` says that a back reference raises TypeError; it is left out of the string, and the `assert` raises `re.error` (C99).
* `gselect` with only None raises ValueError; `ifarg` takes a lexicon with the argument `""` or `0` for one without argument (C100).
* `quote_if_needed` (C101): `12` and `-` get no quotes, although they are no identifiers of CSS; a newline is not escaped, and ends the string.
* `TextFormat.css_properties` (C102): a family name such as `Arial` is written without quotes, and then not read; the same for system fonts; a percentage of stretch is written without `%`; zero is not written; `text-decoration: none` is lost; a unit or angle of an earlier property remains (`largept`). A `font` or `font-style` without values raises IndexError. (Not stated: `font_stretch` should be 1.0 for 100% according to the documentation, but is 100.)
* `full_html` (C103): the base format is put in the style attribute without escaping, so that a font name in quotes ends it; a newline at the start of the text is not shown, because it comes directly after `<pre>`.
* `copy_themes` (C105): `f.copy_themes(f)` removes all themes; the base format is only added again if the factory made something of it; copying from a `SimpleFormatter` raises AttributeError after the themes were cleared.
* `FormatContext.switch` (C106): is called before the last range (for a part of the text: the last two ranges) of the old theme is yielded.
* `AbstractTextRange` (C108): the order only looks at the position, but equality also at the end: two cursors can be `<=` in both directions without being equal; equal ranges have different hashes (`__hash__ = object.__hash__`).
* `Style.select_lxml_element` (C109): is decorated with `style_query`, but returns a `Style`, which can not be iterated: it always raises. `LxmlElement.get_parent` returns a wrapper of `None` for the root element instead of `None`, so that `a > b` for the root element, and `a b` without a matching ancestor, raise AttributeError.
* `LexiconValidator.validate` (C110): no target of a rule with the action `skip`, or with a `SubgroupAction` without actions, is looked at; `using(lexicon)` passes as a target; a default action that is false for Python is forgotten (`if default_act:`); a bare variable as a target raises RuntimeError.
* `introspect` (C111): a lexicon that is set to `None` in a subclass is listed as `None`, and then `rule_items`, `standardactions`, `languages` and `validate_language` raise; a lexicon in a class after `Language` in the `mro()` is missing; a `call` among the items of a `select` can be evaluated but makes `rule_items` raise.
* `localfile`, `save` (C112): `file:///tmp/a%20b` is used as the name `/tmp/a%20b`, `file:/tmp/a?b` as `/tmp/a`; `C:/a.txt` and `re:hello.txt` raise ValueError; when the text can't be encoded, `save(url, encoding)` has already set both attributes, so that a following `save()` fails too; the file is opened with "wb", so its contents are lost when writing fails.
* `WorkerDocumentMixin.token` (C113): returns None at the end of the last token of every document, although that token ends there (`C113_end_violated`); a token that ends with the block separator is returned for the position after it, in a different block; None is returned for a position in trailing white space of a block with tokens.
* `Worker.start`, `set_transformer`, `Transformer.process` (C114): `busy` is False while the transformer runs, so `update()` then starts a second thread in `process()`. Its states are overwritten by the first one (`C114_stale_violated`); both run the same transformer for the same tree, share the mark `_interrupt[tree]`, and the first one deletes it, so that the second one ends with a KeyError and the old result stays (`C114_raise_violated`). `set_transformer` looks only at the transform state: a transformer can be set without ever being run (`C114_lost_violated`), get_transform can return None in between (`C114_early_violated`), and a second build can be started (`C114_two_violated`). The None of an interrupted run is stored when another thread has just reset the mark (`C114_none_violated`).
* `Worker.slot_invalidate` (C115): clears changed contexts only from the cache of the current transformer; when another one that knows the tree is set again after an edit, its result is made of old values (`C115_back_violated`).
* `Xml` (C116): the expression for web addresses in comments includes `-`, so in `<!--http://x--><a/>` the dashes belong to the address and the comment never ends (`C116_comment_violated`).
* `Xml` (C116): in a processing instruction each quote starts a string; `<?p it's?><a/>` never leaves it (`C116_pi_violated`).
* `Xml` (C116): character data with only a no-break space (or another space outside XML's four) gets the action Whitespace (`C116_space_violated`).
* `XmlIO.find_encoding` (C117): only strings with double quotes are looked at: `<?xml encoding='u8' standalone="no"?>` gives `no` (`C117_other_violated`), `<?xml encoding='u8'?>` nothing (`C117_single_violated`); and any processing instruction counts, also after the root element (`C117_elsewhere_violated`).
* `IO.find_encoding` (C118): the documentation has `(en)coding: xxx`, the expression wants `encoding` (`C118_coding_violated`, also `C73_coding_violated`).
* `CssIO.find_encoding` (C118): `@charset` counts anywhere, also in a comment (`C118_css_comment_violated`); `@charset "ISO_8859-1:1987";`, a registered name, is not found (`C118_css_name_violated`).
* `WorkerDocumentMixin.__init__` (C119): a worker with its own root lexicon and no `root_lexicon` argument: the text is never tokenized (`C119_lexicon_violated`) and the `transformer` argument is ignored (`C119_transformer_violated`); a used worker with an empty text keeps the old result for the cleared tree (`C119_result_violated`); a new document with an empty text has no result at all, unlike one that is emptied later (`C119_empty_violated`).
* `Html` (C120): void names and `style`/`script` match the begin of longer names: `<colgroup>` (`C120_prefix_violated`), `<script-x>` (`C120_script_violated`); the lexicon `tag` has no IGNORECASE, unlike `root`, so `<BR>` in an element opens a context (`C120_case_violated`); `<STYLE>` matches in `root` but `dselect` has only lower case (`C120_style_violated`); the end tag of `x:br` counts as void but its start tag does not (`C120_close_violated`).
* `Toml` (C121): the rule that ends a quoted string takes what follows as invalid, also the dot of a dotted key: `"a".b = 1` (`C121_dot_violated`); `\UXXXXXXXX` is not known (`C121_escape_violated`); `"""x""""` is a valid string that ends with a quote (`C121_quote_violated`).
* `Switch.__get__` (C123): the dictionary compares instances with `==`, so that equal instances share a switch that goes away with the first of them (`C123_equal_violated`); `Class.switch` handles the `TypeError` of the weak reference to None as if the value still was 0 and replaces the dictionary: all switches that are on are off (`C123_class_violated`).
* `XHtmlIO.find_encoding` (C124): the value is the first string in double quotes on the right of the name, also of another attribute: `<meta charset='u8' name="x">` and `<meta charset=u8 name="x">` give `x` (`C124_single_violated`, `C124_bare_violated`); `<meta charset="">` gives the quote (`C124_empty_violated`); `<META>` is not seen (`C124_case_violated`); `content="charset='u8'"` gives nothing (`C124_quoted_violated`).
* `language_sister_class` (C126): `mro()[:-2]` is meant to leave out `Language` and `object`, but with `class B(Xml, Mixin)` it leaves out `Mixin` and tries `Language` (`C126_mixin_violated`).
* `Indenter.indent_events` with `LilyPondIndent` (C127): tokens of a language without indenter give no NO_DEDENT, so in a line that begins with Scheme, as the second of `{ #(f` and `2) }`, the closing bracket takes the indent of its own line away (`C127_scheme_violated`).
* `Theme.textformat` (C130): the documentation says that the order of the names of an action does not matter; with `[class^="text"]` it does (`C130_order_violated`). `Theme.baseformat` (C131): `[class="parce"]` is for the window and not for other roles (`C131_window_violated`).
* `StyleSheet.__add__` (C132): it stores all names that `filenames()` gives, also those of conditional imports that `filenames()` of the sum finds again (`C132_twice_violated`), and in the order of a set (`C132_first_violated`).
## Axioms per theorem

* none: C47_violated_end, C47_violated_untransformed, C48_violated_invalidate, Col.C55_violated_opacity, Col.C55_violated_zero, DI.C119_empty_violated, DI.C119_result_violated, Isp.C111_mixin_violated, Qp.C135_pick, Reg.C58_docstring_violated, TR.C108_violated, Theme.C56_violated, Theme.C64_violated, Thm.C105_base_violated
* propext: C02_rebuild, C09_event, C19_plain, C22_first_last, C32_removed_none, C34_violated_exclusive, C38_factory, C48_invalidate, C51_violated, C74_replaced_unique, C80_optional_violated, Cache.C88_raise_violated, Cache.C88_violated, Css.C131_window_violated, Css.C53_violated_important, DI.C119_lexicon_violated, DI.C119_transformer_violated, Ev.C134_needed, Ev.C134_same, FC.C106_always_violated, FC.C106_late_partial, FC.C106_violated, FileC.C91_stale, Ind.C68_no_indent, Isp.C111_call_violated, Isp.C111_override_violated, Lex.C89_argument_violated, Lex.C89_hash_violated, Lex.C89_none, Lx.C109_query_violated, Nd.C98_append, Nd.C98_select, OL.C37_violated, Obs.C36_violated_reentrant, Qp.C135_pick_last, RH.C100_arg, RH.C100_gselect_violated, RH.C100_ifarg_violated, RI.C43_needed, RI.C43_violated_needs, RI.C43_violated_raise, RI.C43_violated_select, RI.C44_violated_skip, Sheet.C132_rules, Sheet.C92_circular_violated, Sheet.C92_delimiter, Sheet.C92_off_violated, Sheet.C92_violated, Sheet.C93_commute, Sheet.C93_filename_violated, Sheet.C93_nested_violated, TF.C102_empty_violated, TF.C102_stale_unit_violated, Theme.C64_size_partial, VL.C110_group_violated, VL.C110_raise_violated, VL.C110_skip_violated, VL.C110_using_violated, WT.C114_early_violated, WT.C114_interrupted, WT.C114_lost_violated, WT.C114_none_violated, WT.C114_raise_violated, WT.C114_stale_violated, WT.C114_two_violated, joinLines_linesOf
* Quot.sound: C38_violated_default
* propext, Quot.sound: C06_write_out_of_range, C10_violated_always, C113_block_violated, C113_left_violated, C129_nothing, C14_find_block, C17_add, C17_compose, C17_make, C17_none_iff, C20_violated, C22_lexemes_ne, C23_violated, C23_violated_bounded, C23_violated_end, C23_violated_grows, C24_literal, C27_trail, C27_trail_left, C28_unique, C29_height, C30_every_event, C32_has_changes, C32_insert_before_partial, C32_merge_partial, C32_new_position, C32_root, C32_sequence_partial, C32_start_never_decreases, C32_violated_always, C34_exclusive_partial, C34_no_lost_change, C34_progress, C34_terminates, C35_quiescent, C35_root_current_partial, C35_violated, C38_merge, C41_bom_partial, C41_lossless, C41_none, C41_violated, C42_split_list, C48_cached, C48_fresh, C48_process, C50_all, C50_allcontexts, C51_complement_partial, C51_in_range_partial, C51_select, C62_remove_ancestors, C62_remove_descendants, C62_uniq, C74_empty_violated, C76_select_lines, C76_select_lines_end, C78_translated_unique, C80_repeated, Cache.C87_alone, Cache.C87_once, Cache.C87_progress, Cache.C87_result, Cache.C87_same, Cache.C88_partial, Cache.C88_progress, Cache.C88_removes, Css.C130_below_partial, Css.C130_order_violated, Css.C130_rule, Css.C131_only, Css.C131_state, Css.C131_window_partial, Css.C53_violated_raise, Css.C54_violated_empty, Css.C63_alternates, Css.C63_prelude, DI.C119_new_partial, DI.C119_stays, DI.C119_transformer, DI.C119_tree_partial, Disp.C90_call, Disp.C90_error, FC.C106_ranges, FC.C106_switches, FC.C106_theme, FileC.C91_violated, IC.C104_order, IC.C104_words, Ind.C107_balanced, Ini.C86_writable, Isp.C111_actions_partial, Isp.C111_items_partial, Isp.C111_languages_partial, Isp.C111_lexicons_partial, Isp.C111_only_partial, Lex.C89_access, Lex.C89_apart, Lex.C89_derived, Lex.C89_distinct, Lex.C89_equal, Lex.C89_kept, Lex.C89_replaced, Nd.C96_upto_violated, Nd.C97_lexicons, Nd.C98_first_last, Nd.C98_parent, Qp.C135_bool, Qp.C135_count, Qp.C135_first, Qp.C135_refused, Qp.C135_slice, Qp.C135_slice_end, Quo.C101_violated, RB.C33_derived_root_violated, RB.C33_lookbehind_violated, RB.C33_no_lexicon, RH.C100_derive, RH.C100_dselect, RH.C100_gselect_partial, RH.C100_ifarg_partial, RH.C100_ifeq, RH.C100_ifgroup, RH.C100_ifmember, RI.C43_constant_partial, RI.C43_item_partial, RI.C43_pattern, RI.C43_rule_partial, RI.C44_tree_partial, RI.C44_variations_partial, Sheet.C132_first_violated, Sheet.C132_twice_violated, Sheet.C92_off_partial, Sheet.C92_once, Sheet.C92_partial, Sheet.C93_partial, Sis.C126_none, Sis.C126_parents_partial, Sis.C126_sound, Sw.C115_back_violated, Sw.C115_result_partial, Sw.C115_set_partial, Swi.C123_class_violated, Swi.C123_equal_violated, TR.C108_eq, Theme.C56_add, Theme.C56_self, Thm.C105_add, Thm.C105_copy_formats_partial, Thm.C105_copy_partial, Thm.C105_copy_violated, Thm.C105_remove, Thm.C105_simple_violated, VL.C110_false_action_violated, VL.C110_skipped, VL.C110_static, VL.C110_targets_partial, Val.C61_false_alarm, Val.C61_violated, WT.C114_noerror_partial, WT.C114_result_partial
* propext, Classical.choice, Quot.sound: C01_context_is_splice, C01_context_is_splice_distinct, C01_noop_same_start_ignored, C02_report_accurate, C02_silent_without_effect, C03_order_irrelevant, C04_exception_exit_is_clean, C04_failing_context_changes_nothing, C04_raises_iff, C05_recovery_partial, C05_violated, C05_violated_always, C06_index_region, C06_insert_append, C06_read_index, C06_read_slice, C06_set_text, C06_write, C07_undo_redo, C08_redo_all, C08_undo_all, C09_undo_restores_flag, C09_unmodified_is_saved, C10_edit_discards_redo, C10_events_exact_partial, C10_violated, C113_block_partial, C113_end_violated, C113_ends_partial, C113_none_partial, C113_some_partial, C113_starts, C11_cursors_follow, C122_find_context, C125_bounds, C125_covers, C129_selection_partial, C129_violated, C12_positions_partial, C12_violated_coordinates, C12_violated_skip, C13_adjacent, C13_blocks_partition, C13_blocks_range, C14_unique, C15_block_number, C15_blocks_obtained, C15_by_number, C15_none, C16_next_previous, C18_lexer_stack, C18_root_kept, C19_lexemes_ordered, C20_complete_partial, C20_prefix_partial, C21_build_tree, C21_tokens, C21_tree_mirrors_events, C22_built_ordered, C22_no_empty_contexts, C23_circular_partial, C23_defaults_partial, C23_terminates_partial, C23_terminates_pops_partial, C25_position, C25_resume, C26_find_token, C26_find_token_after, C26_find_token_before, C26_find_token_left, C28_forward_backward, C28_including, C28_next_previous, C29_copy, C29_tokens, C30_built_in_pieces, C30_disjoint, C30_group, C31_empty, C31_none, C31_range_partial, C31_violated, C32_violated, C38_fix, C39_format_ranges_partial, C39_text_partial, C39_violated_gap, C39_violated_languages, C40_attrescape, C40_document, C40_escape, C40_html, C42_unroll, C47_events_index, C47_events_partial, C47_text_partial, C49_grouped, C49_peek, C50_alltokens, C50_once, C52_delete, C52_tokens, C62_children, C62_range, C70_advance, C70_first_rule, C70_lexicon, C70_meaning, C70_none, C70_preferred, C70_restartable, C70_restartable1, C70_terminates, C70_way, C74_before_violated, C74_negative_violated, C74_replace_partial, C74_undo, C75_found_unique, C75_negative_violated, C75_re_sub_partial, C75_trim_inside_violated, C75_trim_partial, C75_undo, C76_has_selection_partial, C76_has_selection_violated, C76_lstrip, C76_move, C76_rstrip, C76_select, C76_selection, C76_strip, C78_negative_violated, C78_nokeys_violated, C78_translate_partial, C78_undo, C78_whole_violated, C80_covers, C80_csv, C80_inside, C80_no_exception_partial, C80_ordered, C80_restartable, C80_update, Col.C55_hex3, Col.C55_hex4, Col.C55_hex6, Col.C55_hex8, Col.C55_range, Col.C55_rgb_partial, Css.C53_cascade_partial, Css.C54_compound, Css.C54_match_partial, Css.C54_prelude, Css.C54_sound, Css.C54_violated_child, Css.C54_violated_sibling, Css.C54_violated_universal, CssL.C94_column_violated, CssL.C94_comment_violated, CssL.C94_finishes_partial, CssL.C94_nested_violated, CssL.C94_quoted_violated, CssL.C94_slash_violated, CssL.C94_text_partial, CssL.C94_transparent_violated, CssL.C94_value_partial, Csv.C79_blank_violated, Csv.C79_crlf_violated, Csv.C79_finishes, Csv.C79_open_violated, Csv.C79_records_partial, Csv.C79_unique_partial, Csv.C79_value_partial, DocIO.C72_ascii_partial, DocIO.C72_bom_partial, DocIO.C72_cr_violated, DocIO.C72_declared_violated, DocIO.C72_feff_violated, DocIO.C72_roundtrip_partial, DocIO.C72_utf16_violated, DocIO.C72_utf8_partial, DocIO.C73_coding_violated, DocIO.C73_hex_violated, DocIO.C73_reads, DocIO.C73_stored_partial, DocIO.C73_stored_violated, DocIO.C73_writes_partial, DocIO.C73_writes_violated, Dump.C133_lines, Dump.C133_picture, Dump.C133_shape, Dump.C133_styles, FEnc.C118_coding_violated, FEnc.C118_css_comment_violated, FEnc.C118_css_name_violated, FEnc.C118_css_none_partial, FEnc.C118_css_partial, FEnc.C118_told_partial, FEnc.C118_untold, FH.C103_document_partial, FH.C103_newline_violated, FH.C103_quote_violated, FH.C103_shown_partial, FileC.C91_partial, Html.C120_attrs_end, Html.C120_case_violated, Html.C120_close_partial, Html.C120_close_violated, Html.C120_open_attrs_partial, Html.C120_open_partial, Html.C120_prefix_violated, Html.C120_raw, Html.C120_raw_attrs, Html.C120_script_end, Html.C120_script_violated, Html.C120_style_end, Html.C120_style_violated, Html.C120_void_attrs_partial, Html.C120_void_close_partial, Html.C120_void_partial, Html.C124_bare_violated, Html.C124_case_violated, Html.C124_declared_partial, Html.C124_empty_violated, Html.C124_none_partial, Html.C124_quoted_violated, Html.C124_single_violated, IC.C104_family, IC.C104_inline, Ind.C107_css, Ind.C107_levels, Ind.C107_runs, Ind.C127_levels_partial, Ind.C127_scheme_violated, Ind.C59_partial, Ind.C59_violated, Ind.C60_decrease, Ind.C60_increase, Ind.C60_inverse_partial, Ind.C60_never_empty, Ind.C60_violated, Ind.C66_again, Ind.C66_strip, Ind.C66_stripEnd, Ind.C67_auto, Ind.C67_indent, Ind.C68_partial, Ind.C68_violated_close_open, Ind.C68_violated_two, Ini.C86_bracket_violated, Ini.C86_colon_violated, Ini.C86_comment_violated, Ini.C86_equals_violated, Ini.C86_finishes, Ini.C86_key_violated, Ini.C86_letter_violated, Ini.C86_name_violated, Ini.C86_raises_violated, Ini.C86_text_partial, Ini.C86_value_partial, Json.C71_edited_partial, Json.C71_finishes, Json.C71_int_violated, Json.C71_pair_violated, Json.C71_value_partial, Lx.C109_child_violated, Lx.C109_descendant_violated, Lx.C109_match_partial, Lx.C109_select_partial, Lx.C109_siblings, Nd.C95_delete_partial, Nd.C95_left_empty, Nd.C95_sibling, Nd.C95_tokens, Nd.C95_violated, Nd.C96_ancestors, Nd.C96_ancestors_other_partial, Nd.C96_ancestors_upto, Nd.C96_before, Nd.C96_common_ancestor, Nd.C96_range_partial, Nd.C96_range_violated, Nd.C96_siblings, Nd.C96_simple, Nd.C97_equals, Nd.C97_state_matches, Nd.C98_neighbours, Nd.C98_siblings, Num.C82_finishes, Num.C82_number, Num.C82_phrase, Num.C82_spelled, Num.C82_unique, Num.C82_words, Num.C82_writable, Num.C83_texts_partial, Num.C83_violated, Num.C84_finishes_partial, Num.C84_list_partial, Num.C84_violated, Num.C85_dutch_partial, Num.C85_dutch_violated, Num.C85_dutch_words, Num.C85_french_violated, Num.C85_german_partial, Num.C85_german_violated, Num.C85_german_words, Num.C85_spelled, OL.C37_exclusive_partial, OL.C37_no_error, OL.C37_same_lock_partial, Obs.C36_connected, Obs.C36_observable, Obs.C36_once, Quo.C101_escape, Quo.C101_newline_violated, Quo.C101_plain_partial, Quo.C101_quoted_partial, RB.C33_behind_partial, RB.C33_edit_partial, RB.C33_edits_partial, RB.C33_lookahead_violated, RB.C33_root, RB.C33_subgroup_violated, RB.C69_builds, RB.C69_events, RB.C69_events_from, RB.C69_range, RB.C81_interrupted_partial, RB.C81_lost_token_violated, RB.C81_without_reuse_partial, RH.C100_findmember, RI.C43_index, Reg.C128_by_section, Reg.C128_found, Reg.C58_find_partial, Reg.C58_qualname, Reg.C58_suggest, Reg.C58_violated_empty, Reg.C65_add, Reg.C65_errors, Reg.C65_inherit, Rx.C45_unambiguous, Rx.C45_violated_empty, Rx.C45_words_partial, Rx.C46_charclass, Rx.C46_unambiguous, Rx.C77_longest, Rx.C77_match, Rx.C77_reads, Rx.C77_unambiguous, SA.C57_and, SA.C57_different, SA.C57_in, SA.C57_path, SA.C57_same, SA.C57_violated_half, SA.C57_violated_reserved, SL.C112_attributes_violated, SL.C112_colon_violated, SL.C112_error_partial, SL.C112_load, SL.C112_localfile, SL.C112_lost_violated, SL.C112_names, SL.C112_percent_violated, SL.C112_query_violated, SL.C112_save, Sheet.C132_filenames_partial, Sheet.C132_theme, Sis.C126_indent_transform, Sis.C126_io, Sis.C126_kind, Sis.C126_mixin_violated, Sis.C126_own, Swi.C123_switch_partial, TF.C102_round_partial, TF.C102_violated, TF.C102_words, TR.C108_first_last, TR.C108_hash_violated, TR.C108_lines, TR.C108_order_partial, Theme.C56_restore_partial, Theme.C56_sub, Theme.C56_values, ToS.C99_complete_partial, ToS.C99_escape, ToS.C99_needle_partial, ToS.C99_sound, ToS.C99_unique, ToS.C99_verbose_violated, ToS.C99_violated, Toml.C121_dot_violated, Toml.C121_escape_violated, Toml.C121_quote_violated, Toml.C121_tree_partial, Val.C61_invalid, Val.C61_sound_partial, Val.C61_terminates, WT.C114_ends_partial, Xml.C116_comment_violated, Xml.C116_pi_violated, Xml.C116_space_violated, Xml.C116_tree_partial, Xml.C117_declared_partial, Xml.C117_elsewhere_violated, Xml.C117_none_partial, Xml.C117_other_violated, Xml.C117_single_violated, history_inv, obtained_good
