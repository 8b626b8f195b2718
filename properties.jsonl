{"id": "C01", "title": "Edits inside a context apply as one simultaneous replacement", "statement": "When a program makes any number of slice assignments, insertions and deletions inside one `with document:` block and none of them overlap, then at exit the text equals the original text with every requested region (all in original coordinates) replaced by its new text and everything else kept, and texts given for the same start position appear in the order in which they were assigned. (An assignment that would not change its region is not a request; with distinct start positions this makes no difference.)", "quantifier": "every text, every list of non-overlapping replacement requests, in any order", "why_tests_cant": "the number, order and positions of requests are unbounded; a test only fixes one combination", "anchors": ["parce/mutablestring.py:AbstractMutableString.__setitem__", "parce/mutablestring.py:_apply_changes", "parce/mutablestring.py:_get_changes", "parce/mutablestring.py:MutableString._update_text"]}
{"id": "C02", "title": "The reported change describes the edit exactly", "statement": "The (position, removed, added) triple given to text_changed is accurate: the old text and the new text agree before `position`, and the old text after position+removed equals the new text after position+added, so a consumer can rebuild the new text from the old text and the triple.", "quantifier": "every text and every batch of edits", "why_tests_cant": "incremental tokenizing relies on it for every batch; a test only tries a few", "anchors": ["parce/mutablestring.py:_apply_changes", "parce/mutablestring.py:text_changed", "parce/document.py:Document.text_changed"]}
{"id": "C03", "title": "Edit order does not matter for distinct positions", "statement": "Two programs that issue the same set of replacements with pairwise distinct start positions inside one edit context, in different orders, end with the same text (or both fail with the overlap error).", "quantifier": "every text and every permutation of every list of requests with distinct starts", "why_tests_cant": "the number of permutations is unbounded", "anchors": ["parce/mutablestring.py:_get_changes", "parce/mutablestring.py:_apply_changes"]}
{"id": "C04", "title": "A failing or cancelled edit context changes nothing", "statement": "If the edits in a context overlap, or an exception leaves the context, the text is exactly the text from before the context and no change notification is sent; after an exception exit the document accepts new edits as if nothing happened.", "quantifier": "every text, every request list, every nesting depth", "why_tests_cant": "the failing combination may be any pair among any number of requests", "anchors": ["parce/mutablestring.py:__exit__", "parce/mutablestring.py:_get_changes", "parce/mutablestring.py:_apply_changes"]}
{"id": "C05", "title": "A rejected overlapping edit does not poison later edits", "statement": "After an edit context was rejected because of overlapping changes, a later valid edit on the same document succeeds and has its normal effect.", "quantifier": "every history with a rejected context followed by a valid edit", "why_tests_cant": "depends on leftover state, over every history", "anchors": ["parce/mutablestring.py:__exit__", "parce/mutablestring.py:_apply_changes", "parce/mutablestring.py:_get_changes"]}
{"id": "C06", "title": "Reading and writing with slices follows Python sequence rules", "statement": "document[key] reads exactly text[key] for every integer or step-less slice (negative, missing or out-of-range bounds included), and document[key] = s outside a context yields text[:a] + s + text[b:] where a,b are the clamped bounds (b raised to a when smaller); an out-of-range integer raises IndexError and changes nothing.", "quantifier": "every text, every integer or slice key, every replacement text", "why_tests_cant": "unbounded bounds and lengths, including negative ones", "anchors": ["parce/mutablestring.py:_parse_key", "parce/mutablestring.py:__getitem__", "parce/mutablestring.py:__setitem__"]}
{"id": "C07", "title": "Undo exactly reverts an edit and redo re-applies it", "statement": "After any effective edit batch, undo() restores precisely the text from before the batch, and a following redo() restores precisely the text from after the batch.", "quantifier": "every text and every accepted edit batch (any number of changes, adjacent, empty, equal-start)", "why_tests_cant": "the inverse change list is computed from positions that shift; any combination may break it", "anchors": ["parce/document.py:_reverse_changes", "parce/document.py:_store_undo", "parce/document.py:_apply_undo_redo", "parce/document.py:Document.undo", "parce/document.py:Document.redo"]}
{"id": "C08", "title": "Any history of edits can be fully undone and redone", "statement": "Starting from a fresh document, after any sequence of edits, undos and redos, undoing until can_undo() is False gives the initial text, and redoing until can_redo() is False gives the text after the last effective edit of the surviving history.", "quantifier": "every interleaving of edit/undo/redo of any length", "why_tests_cant": "histories are unbounded", "anchors": ["parce/document.py:Document._update_text", "parce/document.py:_store_undo", "parce/document.py:_apply_undo_redo"]}
{"id": "C09", "title": "modified == False means the text is the saved text", "statement": "Whenever `modified` is False, the text equals the text the document had when it was created or when modified was last set to False by the user, through any history of edits, undos and redos.", "quantifier": "every history of edit/undo/redo/save operations", "why_tests_cant": "an editor deciding whether to prompt for saving relies on it in every history", "anchors": ["parce/document.py:Document.modified", "parce/document.py:_set_all_undo_redo_modified", "parce/document.py:_apply_undo_redo"]}
{"id": "C10", "title": "A new edit discards the redo history; undo availability events are accurate", "statement": "After any effective edit that is not an undo or redo, can_undo() is True and can_redo() is False; and whenever the availability of undo (redo) changes, an undo_available (redo_available) event with the new value is emitted.", "quantifier": "every history", "why_tests_cant": "event accuracy must hold at every transition of every history", "anchors": ["parce/document.py:_store_undo", "parce/document.py:_check_undo_state", "parce/document.py:_apply_undo_redo"]}
{"id": "C11", "title": "A cursor follows a single edit", "statement": "When one region [s,e) is replaced by n characters, a cursor position before or at s stays, a position beyond e moves by n-(e-s), a position inside the region moves to s; the cursor end before s stays, an end from s up to e moves to the end of the new text, an end beyond e moves by n-(e-s); an end of None stays None. The cursor stays well-formed (pos <= end).", "quantifier": "every set of cursors, every region and replacement length", "why_tests_cant": "unbounded positions and any number of cursors", "anchors": ["parce/document.py:AbstractDocument._update_cursors", "parce/document.py:Cursor"]}
{"id": "C12", "title": "A cursor follows a batch of edits", "statement": "When several non-overlapping regions are replaced in one edit context, every cursor ends where it would end if each region were mapped from original to new coordinates, independent of the other cursors on the document.", "quantifier": "every set of cursors and every batch", "why_tests_cant": "interaction between several changes and several cursors is unbounded", "anchors": ["parce/document.py:AbstractDocument._update_cursors"]}
{"id": "C13", "title": "Blocks partition the text", "statement": "blocks() yields lines that, joined with the separator, give exactly the text; no line contains the separator; consecutive blocks are adjacent (next.pos = prev.end + 1) and there are exactly block_count() of them.", "quantifier": "every text", "why_tests_cant": "any number and position of separators, including none, leading, trailing and consecutive", "anchors": ["parce/document.py:AbstractDocument.blocks", "parce/document.py:Block.next_block", "parce/document.py:find_end_of_block", "parce/document.py:block_count"]}
{"id": "C14", "title": "find_block returns the block containing the position", "statement": "find_block(p) returns a block of the document with pos <= min(p,len) <= end, which starts at the beginning or just after a separator and ends at the end of text or just before a separator.", "quantifier": "every text and position", "why_tests_cant": "unbounded", "anchors": ["parce/document.py:find_block", "parce/document.py:find_start_of_block", "parce/document.py:find_end_of_block"]}
{"id": "C15", "title": "Block numbers are consistent", "statement": "find_block_by_number(n) for 0 <= n < block_count() returns the n-th block yielded by blocks() and None beyond; find_block_by_number(-k) returns the block with number block_count()-k and None when k > block_count(); block_number of every block equals its index.", "quantifier": "every text and every integer", "why_tests_cant": "unbounded", "anchors": ["parce/document.py:find_block_by_number", "parce/document.py:Block.block_number", "parce/document.py:block_count"]}
{"id": "C16", "title": "next_block and previous_block are inverse", "statement": "For every block that is not the last, next_block().previous_block() equals the block; for every block that is not the first, previous_block().next_block() equals the block; the first has no previous and the last has no next.", "quantifier": "every text and block", "why_tests_cant": "unbounded", "anchors": ["parce/document.py:Block.next_block", "parce/document.py:Block.previous_block"]}
{"id": "C17", "title": "Targets compose", "statement": "Combining any sequence of pushes and pops with a TargetFactory gives one target whose single application to a lexicon stack has the same effect as applying the pushes and pops one after the other; get() resets the factory and reports nothing when the combined effect is empty.", "quantifier": "every sequence of push/pop requests and every stack deep enough", "why_tests_cant": "unbounded sequences", "anchors": ["parce/target.py:TargetFactory.push", "parce/target.py:TargetFactory.pop", "parce/target.py:TargetFactory.get", "parce/target.py:TargetFactory.make"]}
{"id": "C18", "title": "The root lexicon is never left", "statement": "The events produced by a Lexer started with any lexicon stack never pop the bottom lexicon: replaying the targets on the starting stack always leaves at least the root, and no target pops more than the number of lexicons above the root at that moment.", "quantifier": "every language (any rules and dynamic targets), every text, every starting stack", "why_tests_cant": "arbitrary languages request any pop count", "anchors": ["parce/lexer.py:Lexer.events", "parce/target.py:TargetFactory.pop"]}
{"id": "C19", "title": "Lexemes are ordered, non-overlapping slices of the text", "statement": "All lexemes yielded by Lexer.events have positions within the text, a non-empty text equal to the slice at their position, and each starts at or after the end of the previous one, for a language whose actions are not subgroup/delegating actions.", "quantifier": "every language, text and start position", "why_tests_cant": "any regex behaviour", "anchors": ["parce/lexer.py:Lexer.events", "parce/lexer.py:Lexer.filter_actions", "parce/lexicon.py:_get_parse_function"]}
{"id": "C20", "title": "A default action makes lexing complete", "statement": "When every reachable lexicon has a default action, every character of the text from the start position to the end is covered: the lexemes' texts concatenated equal the parsed text.", "quantifier": "every such language and every text", "why_tests_cant": "any match pattern", "anchors": ["parce/lexicon.py:_get_parse_function", "parce/lexer.py:Lexer.events"]}
{"id": "C21", "title": "The tree mirrors the event stream", "statement": "Replaying events with the tree builder gives a tree whose tokens in document order are exactly the lexemes (position, text, action) of the events, and every token's chain of ancestor lexicons equals the lexicon stack the lexer had when the token was produced.", "quantifier": "every valid event stream", "why_tests_cant": "unbounded streams and nesting", "anchors": ["parce/treebuilder.py:build_tree", "parce/treebuilderutil.py:new_tree", "parce/tree.py:make_tokens", "parce/tree.py:Context.tokens"]}
{"id": "C22", "title": "No empty contexts", "statement": "A tree built from the events of the lexer contains no empty context except possibly the root, so that pos/end, first_token and last_token of every sub context are defined.", "quantifier": "every language and text", "why_tests_cant": "any sequence of pushes without text in between", "anchors": ["parce/lexer.py:Lexer.events", "parce/treebuilder.py:build_tree", "parce/tree.py:Context.pos", "parce/tree.py:Context.end"]}
{"id": "C23", "title": "Lexing terminates", "statement": "For every language that passes validation of its default targets, lexing any text finishes.", "quantifier": "every language and text", "why_tests_cant": "non-termination cannot be observed by testing", "anchors": ["parce/lexer.py:Lexer.events", "parce/lexicon.py:_get_parse_function", "parce/validate.py:check_default_target"]}
{"id": "C24", "title": "Literal patterns behave like their regular expression", "statement": "A lexicon with one literal pattern, which is searched with str.find, yields the same (pos, text, action, target) stream as the general scanning path would for that pattern, for each of the default-action, default-target and skip variants.", "quantifier": "every text, position and literal", "why_tests_cant": "unbounded", "anchors": ["parce/lexicon.py:_get_parse_function"]}
{"id": "C25", "title": "Lexing can be resumed at a state", "statement": "If lexing a text yields an event list, then a lexer started with the lexicon stack reached after some prefix of the scan and at the position reached there yields exactly the remaining events.", "quantifier": "every language, text and prefix", "why_tests_cant": "unbounded", "anchors": ["parce/lexer.py:Lexer.events", "parce/lexer.py:Lexer.__init__", "parce/treebuilderutil.py:get_prepared_lexer"]}
{"id": "C26", "title": "find_token finds the first token ending after the position", "statement": "find_token(pos) returns the first token of the tree (in document order) whose end is greater than pos, or None when there is none; find_token_after, find_token_left and find_token_before return the first token with pos >= position, the last token with pos < position, and the last token with end <= position respectively, or None.", "quantifier": "every tree with ordered non-empty tokens and every position", "why_tests_cant": "trees and positions are unbounded", "anchors": ["parce/tree.py:Context.find", "parce/tree.py:Context.find_token", "parce/tree.py:Context.find_token_left", "parce/tree.py:Context.find_token_after", "parce/tree.py:Context.find_token_before"]}
{"id": "C27", "title": "Trails lead to the token", "statement": "find_token_with_trail(pos) and find_token_left_with_trail(pos) return the same token as the variants without trail, and following the trail of indices from the context reaches that token.", "quantifier": "every tree and position", "why_tests_cant": "unbounded", "anchors": ["parce/tree.py:Context.find_token_with_trail", "parce/tree.py:Context.find_token_left_with_trail"]}
{"id": "C28", "title": "forward and backward traverse the tokens in document order", "statement": "From any token, forward() yields exactly the tokens that follow it in document order and backward() exactly those that precede it in reverse order; restricting them with `upto` yields exactly those inside that ancestor; next_token and previous_token are inverse.", "quantifier": "every tree and token", "why_tests_cant": "unbounded", "anchors": ["parce/tree.py:Node.forward", "parce/tree.py:Node.backward", "parce/tree.py:Node.siblings", "parce/tree.py:Node.next_token", "parce/tree.py:Node.previous_token"]}
{"id": "C29", "title": "Tree measures and copies", "statement": "tokens() lists the leaves in document order; height() equals the maximum nesting depth; copy() returns an equal tree; the iterative implementations (written without recursion) agree with the recursive definition.", "quantifier": "every tree", "why_tests_cant": "unbounded depth", "anchors": ["parce/tree.py:Context.tokens", "parce/tree.py:Context.height", "parce/tree.py:Context.copy"]}
{"id": "C30", "title": "Grouped tokens form complete groups", "statement": "For a rule yielding several lexemes, every resulting token's get_group() returns all the tokens of that rule in order, get_group_start the first and get_group_end the last, and the groups of one context are disjoint.", "quantifier": "every list of lexeme lists in a context", "why_tests_cant": "unbounded", "anchors": ["parce/tree.py:GroupToken.get_group", "parce/tree.py:GroupToken.make_group", "parce/tree.py:make_tokens"]}
{"id": "C31", "title": "A range yields exactly the tokens it touches", "statement": "For start < end, root.range(start, end).tokens() yields, in order, precisely the tokens that end after start and begin before end; when there are none, nothing is yielded. An empty range yields nothing.", "quantifier": "every tree, start and end", "why_tests_cant": "unbounded", "anchors": ["parce/tree.py:Range.from_tree", "parce/tree.py:Range.slices", "parce/tree.py:Range.tokens"]}
{"id": "C32", "title": "Accumulated changes cover every edit", "statement": "When several text changes arrive before the tree builder starts, the merged (start, removed, added) change is still accurate with respect to the text the tree was built from: outside the merged region old and new text coincide.", "quantifier": "every sequence of changes", "why_tests_cant": "unbounded sequences and positions", "anchors": ["parce/treebuilderutil.py:Changes.add", "parce/treebuilderutil.py:Changes.new_position", "parce/treebuilderutil.py:Changes.has_changes", "parce/treebuilder.py:TreeBuilder.add_changes"]}
{"id": "C33", "title": "Incremental rebuilding equals rebuilding from scratch", "statement": "After any edit, the updated tree equals the tree that build_tree would produce for the new text.", "quantifier": "every language, tree, text and change", "why_tests_cant": "depends on lookahead of any rule; unbounded", "anchors": ["parce/treebuilder.py:TreeBuilder.build_new_tree", "parce/treebuilder.py:TreeBuilder.replace_tree", "parce/treebuilderutil.py:get_prepared_lexer", "parce/treebuilderutil.py:same_events"]}
{"id": "C34", "title": "No requested change is lost by concurrent rebuild requests", "statement": "When several threads call rebuild() at any moments, every change added is eventually taken into account by a build that starts after it was added, and at most one thread runs the build at a time.", "quantifier": "every interleaving of any number of threads", "why_tests_cant": "schedules cannot be enumerated by tests", "anchors": ["parce/treebuilder.py:TreeBuilder.rebuild", "parce/treebuilder.py:TreeBuilder.process", "parce/treebuilder.py:TreeBuilder.add_changes", "parce/treebuilder.py:TreeBuilder.get_changes"]}
{"id": "C35", "title": "get_root(wait=True) returns the tree for the latest text", "statement": "A call of get_root with wait=True that begins after an update returns only after a build including this update has finished.", "quantifier": "every interleaving", "why_tests_cant": "schedules cannot be enumerated", "anchors": ["parce/work.py:Worker.update", "parce/work.py:Worker.process", "parce/work.py:Worker.get_root"]}
{"id": "C36", "title": "Observers are called once each, in priority order", "statement": "emit calls the connected functions in order of priority and, for equal priority, in order of connecting; a function connected once only is called at most one time; connecting the same function again does not make it be called twice; disconnecting removes it.", "quantifier": "every sequence of connect/disconnect/emit", "why_tests_cant": "unbounded histories", "anchors": ["parce/util.py:Observable.connect", "parce/util.py:Observable.disconnect", "parce/util.py:Observable.emit"]}
{"id": "C37", "title": "Object locks are exclusive", "statement": "At most one thread at a time is inside a locked section for the same object.", "quantifier": "every interleaving of any number of threads", "why_tests_cant": "schedules cannot be enumerated", "anchors": ["parce/util.py:object_locker", "parce/util.py:cached_method", "parce/lexicon.py:Lexicon._derive"]}
{"id": "C38", "title": "Adjacent ranges are merged without losing text", "statement": "merge_adjacent yields ranges covering the same positions with the same format as its input, with no two consecutive ranges adjacent and equal, and fix_boundaries restricts a sorted stream of ranges that touch [start, end] to it exactly.", "quantifier": "every sorted range stream", "why_tests_cant": "unbounded", "anchors": ["parce/util.py:merge_adjacent", "parce/util.py:fix_boundaries"]}
{"id": "C39", "title": "Formatting reproduces the text", "statement": "The text fragments yielded by format_text, concatenated, are exactly the requested slice of the text.", "quantifier": "every text, tree, theme and range", "why_tests_cant": "unbounded", "anchors": ["parce/formatter.py:format_text", "parce/formatter.py:format_ranges"]}
{"id": "C40", "title": "HTML output is safe and lossless", "statement": "The escaped text contains no < or > and no bare ampersand, attribute values additionally no double quote, and unescaping gives back the original, so removing the tags from the HTML and unescaping yields the text.", "quantifier": "every text", "why_tests_cant": "unbounded", "anchors": ["parce/out/html.py:escape", "parce/out/html.py:attrescape", "parce/out/html.py:HtmlFormatter.html"]}
{"id": "C41", "title": "Byte order marks are recognised", "statement": "Data that starts with the byte order mark of UTF-8, UTF-16 or UTF-32 (either endianness) is reported with that encoding and the rest of the data; other data is returned unchanged without encoding.", "quantifier": "every byte string", "why_tests_cant": "unbounded", "anchors": ["parce/util.py:get_bom_encoding", "parce/docio.py:decode_data"]}
{"id": "C42", "title": "List splitting helpers", "statement": "split_list yields the pieces between separators, which joined with the separator give the list back; unroll yields the members of nested tuples and lists in order.", "quantifier": "every list", "why_tests_cant": "unbounded", "anchors": ["parce/util.py:split_list", "parce/util.py:unroll"]}
{"id": "C43", "title": "Pre-evaluation does not change the meaning of a rule", "statement": "Evaluating a rule that was first pre-evaluated with the lexicon's argument gives the same result as evaluating the original rule with text, match and argument at once; a rule reported as not needing evaluation is constant.", "quantifier": "every rule item, environment and argument", "why_tests_cant": "items nest without bound", "anchors": ["parce/ruleitem.py:pre_evaluate", "parce/ruleitem.py:evaluate", "parce/ruleitem.py:needs_evaluation", "parce/ruleitem.py:Item.pre_evaluate"]}
{"id": "C44", "title": "Variations cover every outcome", "statement": "Every result that evaluating a rule item can have under any environment is one of its reported variations.", "quantifier": "every item and environment", "why_tests_cant": "items nest without bound", "anchors": ["parce/ruleitem.py:variations", "parce/ruleitem.py:variations_tree"]}
{"id": "C45", "title": "A word-list regular expression matches exactly the words", "statement": "The expression built from a list of words matches a string fully if and only if the string is one of the words.", "quantifier": "every list of words", "why_tests_cant": "unbounded", "anchors": ["parce/regex.py:words2regexp", "parce/regex.py:make_trie", "parce/regex.py:build_regexp"]}
{"id": "C46", "title": "Character classes match exactly their characters", "statement": "The character class built for a set of characters denotes exactly this set.", "quantifier": "every set of characters", "why_tests_cant": "unbounded", "anchors": ["parce/regex.py:make_charclass"]}
{"id": "C47", "title": "Transforming text equals transforming the tree", "statement": "transform_text(lexicon, text) gives the same result as transform_tree of the tree built from the text.", "quantifier": "every language, transform and text", "why_tests_cant": "unbounded nesting, any missing methods", "anchors": ["parce/transform.py:Transformer.transform_text", "parce/transform.py:Transformer.transform_tree"]}
{"id": "C48", "title": "Cached transforming equals fresh transforming", "statement": "Transforming a tree with a cache whose entries are correct for unchanged contexts gives the same result as transforming from scratch, and all entries remain correct; an interrupted transform publishes no result.", "quantifier": "every tree, cache and interruption point", "why_tests_cant": "unbounded", "anchors": ["parce/transform.py:Transformer.transform_tree", "parce/transform.py:Transformer.process", "parce/transform.py:Transformer.invalidate_node"]}
{"id": "C49", "title": "Item list helpers", "statement": "grouped_objects yields the objects of the named items in order, each group having at most one object per name and no object lost; peek(i, ...) is True exactly when the slice from i has these names/actions.", "quantifier": "every item list", "why_tests_cant": "unbounded", "anchors": ["parce/transform.py:ItemList.grouped_objects", "parce/transform.py:ItemList.peek"]}
{"id": "C50", "title": "Query all visits every node once in document order", "statement": "query.all yields the start node followed by all its descendants in pre-order; alltokens and allcontexts are its restrictions to tokens and contexts.", "quantifier": "every tree", "why_tests_cant": "unbounded depth", "anchors": ["parce/query.py:Query.all", "parce/query.py:Query.alltokens", "parce/query.py:Query.allcontexts"]}
{"id": "C51", "title": "is_not complements a selector", "statement": "For every invertible selector, each token (context) of the source is yielded by exactly one of q.selector(..) and q.is_not.selector(..).", "quantifier": "every query source and selector argument", "why_tests_cant": "unbounded", "anchors": ["parce/query.py:Query.is_not", "parce/query.py:Query.in_range", "parce/query.py:Query.startingwith", "parce/query.py:Query.action", "parce/query.py:Query.len"]}
{"id": "C52", "title": "Query deletion removes exactly the selected nodes", "statement": "query.delete() removes the selected nodes (and contexts that become empty), keeps every other token in order, and leaves no empty context except the root.", "quantifier": "every tree and selection", "why_tests_cant": "unbounded", "anchors": ["parce/query.py:Query.delete", "parce/query.py:Query.uniq", "parce/query.py:Query.remove_descendants"]}
{"id": "C53", "title": "CSS cascade", "statement": "The combined value of a property is that of the !important declaration of the most specific matching rule having one, otherwise that of the most specific matching rule; among equally specific rules the later one wins.", "quantifier": "every list of rules", "why_tests_cant": "unbounded", "anchors": ["parce/css.py:Style.properties", "parce/css.py:StyleSheet.style", "parce/css.py:calculate_specificity"]}
{"id": "C54", "title": "CSS selector matching follows the combinators", "statement": "An element matches a complex selector exactly when elements for all its compound selectors can be chosen that are related by the combinators.", "quantifier": "every element tree and selector list", "why_tests_cant": "unbounded", "anchors": ["parce/css.py:AbstractElement.match_selectors", "parce/css.py:AbstractElement.match_selector"]}
{"id": "C55", "title": "CSS colours are read correctly", "statement": "get_hex_color of a 6- or 3-digit colour gives the channel values in 0..255 and color2hex writes them back to the same colour; rgb(r,g,b) with integers in 0..255 gives exactly these channels.", "quantifier": "all colours", "why_tests_cant": "too many combinations (and zero is special)", "anchors": ["parce/css.py:CssTransform.get_hex_color", "parce/css.py:CssTransform.get_rgba_color", "parce/css.py:color2hex"]}
{"id": "C56", "title": "Text format arithmetic", "statement": "base + (f - base) equals base + f, f - f is empty, adding is associative, and the properties of the right operand win.", "quantifier": "all text formats", "why_tests_cant": "unbounded property values", "anchors": ["parce/theme.py:TextFormat.__add__", "parce/theme.py:TextFormat.__sub__"]}
{"id": "C57", "title": "Standard actions are singletons in a hierarchy", "statement": "Creating an action by the same path twice, from any threads, gives the same object; `a in b` holds exactly when b is a or an ancestor of a; a & b is the closest common ancestor.", "quantifier": "every sequence of creations and every pair", "why_tests_cant": "unbounded hierarchy and interleavings", "anchors": ["parce/standardaction.py:StandardAction"]}
{"id": "C58", "title": "Registry lookup", "statement": "find(name) prefers an exact name, then an alias, then a case-insensitive match, then the class name; when nothing is found in the registry the fallback registry is consulted; suggest returns names by decreasing weight.", "quantifier": "every registry content", "why_tests_cant": "unbounded", "anchors": ["parce/registry.py:Registry.qualname", "parce/registry.py:Registry.find", "parce/registry.py:Registry.suggest"]}
{"id": "C59", "title": "Indenting is stable", "statement": "Indenting a document that was just indented changes nothing, provided the language reports the same structure.", "quantifier": "every document", "why_tests_cant": "unbounded lines, blank lines included", "anchors": ["parce/indent.py:AbstractIndenter.indent", "parce/indent.py:AbstractIndenter.indent_info"]}
{"id": "C60", "title": "Indent level never goes below the first level and increase/decrease are inverse", "statement": "The stack of indents is never emptied by any number of dedents, and decreasing the indent right after increasing it restores the text.", "quantifier": "every document and event list", "why_tests_cant": "unbounded", "anchors": ["parce/indent.py:AbstractIndenter.indent", "parce/indent.py:increase_indent", "parce/indent.py:decrease_indent"]}
{"id": "C61", "title": "Default-target validation terminates and is sound", "statement": "check_default_target always finishes, and when it reports neither error nor warning, following default targets from this lexicon ends without a cycle.", "quantifier": "every set of lexicons", "why_tests_cant": "graphs of lexicons are unbounded", "anchors": ["parce/validate.py:LexiconValidator.check_default_target"]}
{"id": "C62", "title": "Query set operators", "statement": "uniq keeps every node exactly once; remove_descendants keeps exactly the nodes that are not below another selected node and remove_ancestors those that are not above one; range is the lowest position and the highest end; [n] and children give exactly the children that exist.", "quantifier": "every tree and selection", "why_tests_cant": "unbounded", "anchors": ["parce/query.py:Query.uniq", "parce/query.py:Query.remove_descendants", "parce/query.py:Query.remove_ancestors", "parce/query.py:Query.range", "parce/query.py:Query.__getitem__"]}
{"id": "C63", "title": "CSS preludes are split at the combinators and commas", "statement": "The prelude of a style rule is split into selectors at the commas, each selector into compound selectors at the combinators, in order and without losing or adding any; a selector never starts or ends with a combinator and compound selectors and combinators alternate.", "quantifier": "all preludes of any length", "why_tests_cant": "unbounded length and nesting of selectors", "anchors": ["parce/css.py:CssTransform.prelude"]}
{"id": "C64", "title": "The font size that is written is the one that was given", "statement": "The font size and unit a text format writes as CSS are those of the declaration that set the size last.", "quantifier": "all text formats and values", "why_tests_cant": "unbounded sequences of declarations", "anchors": ["parce/theme.py:TextFormat.read_font_size", "parce/theme.py:TextFormat.write_font"]}
{"id": "C65", "title": "Registering a language", "statement": "Adding an entry stores it under its name and leaves the other entries alone; with inherit the inherited entry is removed and its aliases, file names, mime types and guesses are merged before the new ones; a missing inherited entry, name or description is an error.", "quantifier": "every registry and entry", "why_tests_cant": "unbounded dictionaries", "anchors": ["parce/registry.py:Registry.add"]}
{"id": "C66", "title": "Stripping trailing blanks", "statement": "strip_trailing_blanks removes exactly the white space at the end of each line of the cursor that may be stripped, changes nothing else, and doing it again changes nothing.", "quantifier": "every document, cursor and event list", "why_tests_cant": "unbounded lines", "anchors": ["parce/indent.py:AbstractIndenter.strip_trailing_blanks"]}
{"id": "C67", "title": "Indenting changes only leading white space", "statement": "indent and auto_indent change nothing but the white space at the start of lines, and only of lines in the cursor's range.", "quantifier": "every document, cursor and event list", "why_tests_cant": "unbounded lines", "anchors": ["parce/indent.py:AbstractIndenter.indent", "parce/indent.py:AbstractIndenter.auto_indent"]}
{"id": "C68", "title": "auto_indent agrees with indent", "statement": "When the lines before are indented the way indent does it, auto_indent gives a line the indent that indent would give it.", "quantifier": "every document and event list", "why_tests_cant": "unbounded number of lines and levels", "anchors": ["parce/indent.py:AbstractIndenter.auto_indent", "parce/indent.py:AbstractIndenter.indent"]}
{"id": "C69", "title": "events_with_tokens is the inverse of building", "statement": "For a tree that was built from events, events_with_tokens(start, last) yields, in order, exactly the tokens from start to last grouped as they were made, each with the event of its lexemes; and the events from the first to the last token of the tree build the same tree again.", "quantifier": "every language, text, tree and pair of tokens in it", "why_tests_cant": "depends on all shapes of trees; the target of each event is computed from the path between two tokens", "anchors": ["parce/treebuilderutil.py:events_with_tokens", "parce/tree.py:Range.slices", "parce/target.py:TargetFactory"]}
{"id": "C70", "title": "A lexicon finds the leftmost match of the first rule that matches", "statement": "With the patterns of a lexicon joined as alternatives, the parser yields the match with the smallest start at or after the position, for the first rule in the lexicon that matches at that start, with the end that rule prefers; it finds nothing only if no rule matches anywhere. After an empty match it continues with a non-empty match at the same position or with a match further on. Lexicons built this way meet what the lexer and the update of the tree ask for, if no pattern looks further ahead than 9 characters or further behind than one.", "quantifier": "every list of rules with regular expressions, text and position", "why_tests_cant": "expressions and texts are unbounded; backtracking order decides the result", "anchors": ["parce/lexicon.py:_get_parse_function", "parce/lexer.py:events", "parce/treebuilder.py:build_new_tree"]}
{"id": "C71", "title": "JSON texts are transformed to the value they stand for", "statement": "For every text that is a JSON text by RFC 8259, lexing ends and transforming with JsonTransform gives the Python value the text stands for, also when the tree was updated after an edit", "quantifier": "every JSON text, nesting depth and layout of white space", "why_tests_cant": "there are infinitely many texts and nestings", "anchors": ["parce/lang/json.py:Json", "parce/lang/json.py:JsonTransform", "parce/transform.py:Transformer.transform_text"]}
{"id": "C72", "title": "Saving and loading a document gives the same text", "statement": "A document that is saved and loaded again, with the same encoding specified or with none, has the same text and root lexicon, and saving it again writes the same bytes.", "quantifier": "every text, encoding, language and newline mode", "why_tests_cant": "the space of texts and encodings is unbounded; failures are at rare beginnings of data", "anchors": ["parce/docio.py:DocumentIOMixin.from_bytes", "parce/docio.py:DocumentIOMixin.to_bytes", "parce/docio.py:decode_data", "parce/docio.py:encode_text"]}
{"id": "C73", "title": "The encoding that is used and stored", "statement": "decode_data uses the encoding of the byte order mark, or else the one mentioned in the text, the one specified, the default of the language, or UTF-8, and returns the specified encoding or else the one that was used; saving uses the specified encoding, or else that of the document, the one mentioned in the text, the default of the language, or UTF-8.", "quantifier": "every data, specified encoding and language", "why_tests_cant": "combinations of five sources of an encoding", "anchors": ["parce/docio.py:decode_data", "parce/docio.py:encode_text", "parce/docio.py:_validate_encoding", "parce/docio.py:IO.find_encoding"]}
{"id": "C74", "title": "replace() does in a region what str.replace does", "statement": "Document.replace(old, new, start, end, count) makes of the text of the region [start:end] exactly what Python's str.replace(old, new, count) makes of it (leftmost occurrences first, going on after each replaced one, at most count of them if count is positive), leaves the text outside of the region as it is, always ends and raises nothing, and all replacements are undone in one step.", "quantifier": "for all documents outside an edit context, all non-empty and empty old, all new texts, all start, end and count", "why_tests_cant": "The assignments are made with positions relative to a slice, in a context that applies them afterwards; overlaps, self-overlapping search texts, negative bounds and count interact, and no test calls replace().", "anchors": ["parce/document.py:210-228"]}
{"id": "C75", "title": "re_sub() replaces exactly the matches in the region, and trim() removes exactly the trailing blanks", "statement": "Document.re_sub replaces in the region [start:end] exactly the matches a search from left to right finds (each the preferred one at the leftmost position, the next one after the end of the one before, no empty match right at the end of an empty match), at most count of them, without raising, leaving everything else as it is, and undoable in one step. trim() removes exactly those blanks of the region that are followed only by blanks up to the end of their line.", "quantifier": "for all documents outside an edit context, all regular expressions and replacement functions, all start, end and count", "why_tests_cant": "Empty matches, adjacent matches, bounds and the deferred application of the changes give unboundedly many combinations.", "anchors": ["parce/document.py:230-259"]}
{"id": "C76", "title": "cursor methods select what they say", "statement": "Cursor.lstrip, rstrip and strip shrink the selection over exactly the characters to strip, as str.lstrip, rstrip and strip do on its text; selection() gives the range the text of the cursor comes from and has_selection() tells whether there is text in it; select_all, select_none and select do what they say; select_start_of_block and select_end_of_block extend the selection to whole lines; move_start_of_block and move_end_of_block go to the bounds of the current line.", "quantifier": "for all texts, cursors and sets of characters", "why_tests_cant": "Ends that are None, beyond the document or before the start combine with texts that consist of blanks only.", "anchors": ["parce/document.py:588-683"]}
{"id": "C77", "title": "A word-list regular expression finds the longest word", "statement": "At every position of every text the expression built from a non-empty list of words takes the longest word of the list that is there (and of the words with an end that suits what follows the longest such word), in whatever order the alternatives come out of the sets; if there is no such word it does not match.", "quantifier": "every non-empty list of words, order of set iteration, text, position and condition on the end", "why_tests_cant": "unbounded; and the order depends on hash values", "anchors": ["parce/regex.py:words2regexp", "parce/regex.py:trie_to_regexp_tuple", "parce/regex.py:build_regexp"]}
{"id": "C78", "title": "Translating keys replaces the longest key from left to right", "statement": "document.translate(mapping, start, end, count, whole_words) raises nothing and replaces in the region, from left to right and at most count times, every occurrence of a key by its value; where more keys occur the longest is taken (with whole_words: the longest that starts and ends at the edge of a word of the document); the rest of the text stays as it is, and all replacements are undone in one step.", "quantifier": "for all documents, mappings, regions, counts, and orders in which a set is iterated", "why_tests_cant": "The expression depends on all the keys, on their common prefixes and suffixes and on the hash order of sets; the one test has a mapping of two single characters.", "anchors": ["parce/document.py:261-272", "parce/regex.py:31-48"]}
{"id": "C79", "title": "CSV texts give their records", "statement": "For every CSV text in the sense of RFC 4180 (fields separated with commas, records separated with line ends, plain or quoted fields with doubled quotes), transform_text with the CSV language returns the list of the tuples of the fields, where an empty unquoted field is None; and lexing any text, also malformed, ends.", "quantifier": "for all tables, all contents of quoted fields, all ways to write them, all characters that a white space class matches, and (ending) all texts", "why_tests_cant": "The fields can contain anything between quotes, and a record's text is unbounded; the tests only print the tree of one example table and compare nothing. Quotes, commas and line ends interact in ways that only show for particular combinations.", "anchors": ["parce/lang/csv.py:35-103", "parce/ruleitem.py:359-383", "parce/lexer.py:117-183", "parce/util.py:737-750"]}
{"id": "C80", "title": "Actions for groups, actions that use a lexicon and computed actions give ordered lexemes inside the match", "statement": "With bygroup (SubgroupAction), using (DelegateAction), skip and actions computed from the text or the match, every token is a non-empty slice of the text and the tokens follow each other, provided the groups of the pattern follow each other; if the pattern is a row of groups with an action each, all text of the match is in tokens; a group that took no part in the match gives no token and no exception; and updating the tree after an edit is exact if the first group starts the match, can not be empty and has a plain action.", "quantifier": "for all languages with such rules, all texts, all nesting of lexers to any depth, all stacks, and all edits", "why_tests_cant": "The rules are arbitrary, and lexers nest inside groups of matches of other lexers; positions are translated at each level. A test sees a few rules and a few texts.", "anchors": ["parce/ruleitem.py:359-433", "parce/lexer.py:117-183", "parce/rule.py:423-457"]}
{"id": "C81", "title": "Changes that arrive while a tree is built are not lost", "statement": "Whenever edits of the text and new root lexicons are reported to the tree builder (before, while or after it builds the tree for an earlier one, and after any number of events of that build), the tree that is there when all work is done is the tree of the last text and the last root lexicon, as if it had been built at once.", "quantifier": "for all languages that satisfy the assumptions of C33, all texts, all sequences of edits and root lexicons, and all schedules (after how many events each of them is seen)", "why_tests_cant": "An example has one schedule; here every interleaving of the requests with the events of the builds matters, and the code that continues with a part of the new tree is only reached when a request is seen at the right time.", "anchors": ["parce/treebuilder.py:218-372", "parce/treebuilder.py:541-586", "parce/treebuilderutil.py:119-180"]}
{"id": "C82", "title": "English number words are read as the number they stand for", "statement": "transform_text(English.root, text) gives [n] when the text is the number n in English words, for every n below 10^12 (and for every other phrase that the words hundred, thousand and million form, such as twelve hundred), in any mix of upper and lower case, and with any blanks and hyphens after the words or none.", "quantifier": "for all numbers below 10^12, all casings, all separators, and all Unicode tables that treat ASCII letters as usual", "why_tests_cant": "There are 10^12 numbers and unboundedly many ways to write each of them; the test has a few phrases. Contexts are closed by default targets, so each word can change the meaning of all before it.", "anchors": ["parce/lang/numbers.py:103-113", "parce/lang/numbers.py:154-245", "parce/lang/numbers.py:248-297", "parce/rule.py:330-349"]}
{"id": "C83", "title": "Several numbers in a text are detected", "statement": "If a text consists of English numbers, separated with characters that are no letters, or following each other such that the words next to each other do not belong to one number, the value is the list of these numbers.", "quantifier": "for all lists of numbers, all ways to write them, and all characters between them", "why_tests_cant": "Whether two words belong to one number depends on all words before them; a test has one or two lists.", "anchors": ["parce/lang/numbers.py:20-85", "parce/lang/numbers.py:165-205", "parce/lang/numbers.py:208-245", "parce/lang/numbers.py:248-267"]}
{"id": "C84", "title": "The result of the number languages is always a list", "statement": "For any text at all, transform_text(English.root, text) ends, raises nothing and returns a list of integers.", "quantifier": "for all texts and Unicode tables", "why_tests_cant": "The lexer follows default targets without text in circles and is only stopped by a check on positions; and the words are found by a case-insensitive expression, but looked up by str.lower(). Random texts hardly contain number words.", "anchors": ["parce/lang/numbers.py:165-245", "parce/lexer.py:117-172"]}
{"id": "C85", "title": "Dutch, German and French number words are read as the number they stand for", "statement": "For each of the languages, every number below 10^12 in words gives the list with this number.", "quantifier": "for all numbers below 10^12, casings and separators", "why_tests_cant": "As for English; the compound words below hundred are split by one expression with optional parts.", "anchors": ["parce/lang/numbers.py:116-152", "parce/lang/numbers.py:300-463"]}
{"id": "C86", "title": "Reading an INI file gives the dictionary of its sections", "statement": "Lexing any text with the Ini lexicons ends; and for every INI file (lines with a section name, a key and a value, and comments; in which line ends, backslashes and the comment characters are escaped), transforming its tree and transforming its text give the dictionary of the sections with the dictionaries of their keys and values, in which the last of equal keys or sections wins.", "quantifier": "for all texts; for all files, of any number of lines", "why_tests_cant": "The lexer goes through contexts without text in circles; blanks are only stripped at the ends of values that consist of several tokens; the end of a comment pops a context without a token. The tests only print the tree of one example file.", "anchors": ["parce/lang/ini.py:37-143", "parce/language.py:45-58", "parce/lexer.py:117-172"]}
{"id": "C87", "title": "Caches with one lock call the function once", "statement": "Whatever any number of threads do with a caching_dict (and with a Dispatcher table or the parse attribute of a lexicon, which are also looked up without the lock): the function is run by one thread at a time; it is called once for each key, not counting calls that raised an exception (or, if None is not to be kept, gave None); all threads get the same value for a key; there is no deadlock.", "quantifier": "for all interleavings of any number of threads, keys and results", "why_tests_cant": "Races need an unlucky schedule of threads.", "anchors": ["parce/util.py:542-601", "parce/util.py:130-151", "parce/lexicon.py:245-257"]}
{"id": "C88", "title": "Cached methods and properties call the function once", "statement": "Whatever any number of threads do: a cached method or property calls the function once for each object and arguments, and all threads get the same value; removing a lock never fails; there is no deadlock.", "quantifier": "for all interleavings of any number of threads, objects, arguments and results", "why_tests_cant": "Races need an unlucky schedule of threads.", "anchors": ["parce/util.py:463-540", "parce/lexicon.py:189-227"]}
{"id": "C89", "title": "Lexicons are single objects", "statement": "Access through a class always gives the same lexicon, another one for each class and descriptor; lexicon(None) is the lexicon itself; lexicon(a) is always the same object, with the argument a, another one for each argument, whatever lexicon of the same descriptor and language is called, so that lexicon(a)(b) is lexicon(b); == is an equivalence that holds exactly between lexicons of the same descriptor and language, and equal lexicons have equal hashes.", "quantifier": "for all sequences of accesses and calls, all descriptors, classes and arguments", "why_tests_cant": "Identity depends on everything that was done before.", "anchors": ["parce/lexicon.py:83-204"]}
{"id": "C90", "title": "A dispatcher calls the method for the key", "statement": "A call of a dispatcher calls what has the name that the first class in the method resolution order registers for the key, as that name is looked up in the class of the instance; if no class registers the key, the default is called; if a registered name does not exist, every call raises AttributeError.", "quantifier": "for all classes, method resolution orders, registrations and keys", "why_tests_cant": "No test uses a dispatcher directly, and a test would have one or two classes.", "anchors": ["parce/util.py:39-187"]}
{"id": "C91", "title": "The cache for files gives no old values", "statement": "If each version of a file has its own time, file_cache gives what the function makes of a version that the file had during the call, whenever the file is changed or removed.", "quantifier": "for all files, all sequences of calls and all moments at which the file changes", "why_tests_cant": "Changes must fall between two system calls.", "anchors": ["parce/util.py:604-631"]}
{"id": "C92", "title": "Style sheets include what they import", "statement": "The style rules of a style sheet read by StyleSheet.from_css are its own rules, with the rules of an imported file at the place of the @import, also for files that import others; circular imports are read once; with allow_import=False the rules are the own rules of the style sheet.", "quantifier": "for all style sheets, file systems and nestings of imports and blocks", "why_tests_cant": "No test has a sheet with an import.", "anchors": ["parce/css.py:182-275"]}
{"id": "C93", "title": "Filtering conditions leaves out the conditions that do not hold", "statement": "filter_conditions returns a style sheet with all rules, in order, except the conditions with the keyword for which the predicate is false, and the names of the files it was read from.", "quantifier": "for all style sheets, keywords and predicates", "why_tests_cant": "No test filters conditions, and they nest without bound.", "anchors": ["parce/css.py:284-345"]}
{"id": "C94", "title": "A style sheet is read as the rules it stands for", "statement": "Lexing the text of a style sheet with the lexicons of the Css language ends, and transforming the tree or the events with CssTransform gives the list of its rules in order: for a style rule the list of selectors (with combinators, element, id, class, attribute, pseudo class and pseudo element selectors) and the dictionary of its declarations with their values, for an at-rule its keyword, its contents and its block; white space and comments do not matter.", "quantifier": "For every style sheet (abstract syntax with arbitrary white space and comments between its parts), every table of words, every choice of what \\d, \\s and \\w match outside of ASCII, and all functions that compute numbers and colours.", "why_tests_cant": "There are infinitely many nested texts; the one CSS test looks at the tree of one sheet and reads no rules, and the errors occur for particular combinations (a quoted string, a comment at the end, a nested at-rule).", "anchors": ["parce/lang/css.py:54-298", "parce/css.py:809-1293"]}
{"id": "C95", "title": "Deleting a node of a tree removes that node and nothing else", "statement": "Node.delete() removes the node from its tree, together with the ancestors that have nothing left by that, and no other node; it returns the innermost ancestor that remains, or None when the root has become empty.", "quantifier": "for all trees without empty contexts and all nodes that are not the root", "why_tests_cant": "The parents are found by a bisection over positions while the tree is being changed, so the result depends on the number of siblings and the index of every context that becomes empty; no test deletes a node.", "anchors": ["parce/tree.py:308-318", "parce/tree.py:131-153", "parce/tree.py:203-208"]}
{"id": "C96", "title": "Ancestors, siblings and ranges between nodes follow from the places of the nodes", "statement": "ancestors() lists the contexts a node is in, the innermost first, and stops after upto only if that is one of them; common_ancestor() is the innermost context that two nodes are in; the siblings are the other children of the parent; common_ancestor_with_trail() gives the paths from the common ancestor to both tokens, and range() the tokens from the one to the other, both included, for any two tokens of the same tree.", "quantifier": "for all trees without empty contexts and all nodes in them", "why_tests_cant": "There are infinitely many trees and pairs of nodes; no test asks for ancestors, siblings or ranges.", "anchors": ["parce/tree.py:162-268", "parce/tree.py:458-502"]}
{"id": "C97", "title": "Tokens are equal when their text, action and lexicons are equal", "statement": "state_matches() is true exactly when the lexicons of the ancestors of both tokens are the same, in the same order, and equals() when text and action are also the same; for tokens of one tree and of different trees.", "quantifier": "for all trees and all tokens in them", "why_tests_cant": "The loop stops at the first common ancestor and at the end of the shorter chain; that this gives the same answer as comparing everything must hold for all depths.", "anchors": ["parce/tree.py:398-421"]}
{"id": "C98", "title": "Queries navigate like the nodes do", "statement": "In a query, first and last are the same as [0] and [-1]; parent gives the parent of every node that has one; next, previous, forward and backward give the tokens after and before every node in the order of the document; left, right, left_siblings and right_siblings give the siblings; tokens, contexts and filter keep the nodes of that kind. No node is lost because it counts as false.", "quantifier": "for all trees without empty contexts and empty tokens, and all lists of nodes", "why_tests_cant": "Nodes are tested for truth, which is false for contexts and tokens of length zero; the tests make a handful of queries on fixed trees.", "anchors": ["parce/query.py:444-558"]}
{"id": "C99", "title": "A pattern that is searched as a plain string matches that string only", "statement": "When to_string() turns a regular expression into a string, that expression is a row of characters and escapes that matches this string and no other; every such expression is turned into its string; a lexicon with one pattern searches for a plain string only if the pattern, with the flags of the lexicon, matches exactly that string.", "quantifier": "for all texts of regular expressions and all flags of the lexicon", "why_tests_cant": "The function rewrites texts of regular expressions with regular expressions; only a few of the infinitely many combinations of escapes can be tested, and the assertion in the code ignores the flags.", "anchors": ["parce/regex.py:105-154", "parce/lexicon.py:312-318", "parce/rule.py:385-406"]}
{"id": "C100", "title": "Functions that make rule items choose what they say", "statement": "ifeq, ifneq and ifmember choose by equality and membership; ifgroup by whether the group contributes to the match; gselect is the same as nested ifgroup items where None is skipped; dselect chooses the value of the key, findmember the result of the first sequence that has the item, or else the default; derive gives the lexicon with the argument; arg gives the escaped argument with prefix and suffix, and ifarg its first pattern exactly when the lexicon has an argument.", "quantifier": "for all items, sequences, mappings, matches and arguments", "why_tests_cant": "The functions build index tables that are looked up later; the tests only meet them inside the bundled languages, with fixed tables.", "anchors": ["parce/rule.py:85-417", "parce/ruleitem.py:62-68"]}
{"id": "C101", "title": "A string quoted for CSS is read back as that string", "statement": "quote_if_needed(s) is either s itself, and then s is an identifier of CSS, or a string in double quotes that a reader of CSS (CSS Syntax level 3, 4.3.5 and 4.3.7) reads as exactly s and ends at the closing quote. The escapes that css_escape writes are read as the characters that were escaped.", "quantifier": "all strings, whatever text follows the quoted string", "why_tests_cant": "There are more than a million characters, and each can be followed by a character that would be taken as part of the escape; no test quotes a string.", "anchors": ["parce/css.py:1395-1405"]}
{"id": "C102", "title": "A text format that is written as CSS and read again is the same", "statement": "For every text format f that was made from CSS properties, the properties that css_properties() gives for f, read as CSS values, make a text format equal to f.", "quantifier": "all lists of CSS properties with all values, for all numbers and colours", "why_tests_cant": "A format has seventeen attributes that are written in a few properties; the values that go wrong are those that are false (zero), that have no quotes, or that remain from an earlier property, and no test writes a format.", "anchors": ["parce/theme.py:252-260", "parce/theme.py:307-528"]}
{"id": "C103", "title": "A complete HTML document shows the text in the base format", "statement": "A browser that reads the document that full_html() writes shows, in the pre element, exactly the formatted text, with the base format of the theme as its style.", "quantifier": "all texts, formats, themes and charsets", "why_tests_cant": "A browser drops a newline after <pre> and reads attributes up to the next quote; no test makes an HTML document, and comparing one with an expected text does not read it as HTML.", "anchors": ["parce/out/html.py:57-86"]}
{"id": "C104", "title": "Inline CSS is read as the properties of the format", "statement": "The style attribute that inline_css() writes for a text format is read by a reader of CSS declarations as exactly the properties of the format, ordered by name; names of fonts cannot end a declaration, whatever characters they have; the order of the properties does not change the format that is read.", "quantifier": "all lists of properties, all names of fonts and all text formats", "why_tests_cant": "Names of fonts can have any characters, including quotes, semicolons and backslashes; no test writes inline CSS.", "anchors": ["parce/out/html.py:168-176", "parce/css.py:1395-1405", "parce/theme.py:307-400"]}
{"id": "C105", "title": "Themes that are added, removed and copied", "statement": "After add_theme(theme, language, add_baseformat) a formatter uses that theme for that language, with the base format added if asked for, and nothing else changes; after remove_theme(language) the language has no theme of its own, and nothing else changes; after copy_themes(other) the formatter has the same themes as the other, and if both make formats in the same way, the same formats.", "quantifier": "all themes, languages, factories and sequences of these calls on any number of formatters", "why_tests_cant": "Copying reads the caches of the other formatter after clearing the own, and guesses the add_baseformat flag from what the factory made; no test uses a formatter.", "anchors": ["parce/formatter.py:110-145", "parce/formatter.py:353-450"]}
{"id": "C106", "title": "A format context is told of each change of theme in time", "statement": "format_ranges() with a format context yields the same ranges as without; it calls start() with the default cache before everything and done() after everything; it calls switch() exactly when the theme changes, with the theme of the context that is entered, which is the theme the following tokens are formatted with; every range is yielded after the switch to its theme and before the next switch.", "quantifier": "all trees, ranges of text, themes per language and formats", "why_tests_cant": "The calls are made in a generator that is read through two other generators, each of which holds back a range; tests of format contexts would have to compare the order of calls and ranges.", "anchors": ["parce/formatter.py:158-261", "parce/formatter.py:453-470", "parce/util.py:646-692"]}
{"id": "C107", "title": "Indenting CSS gives each line its level of brackets", "statement": "The indenter gives the tokens of a line to the indenters of their languages, in runs that are as long as possible; with the indenter of CSS, after indenting the whole document, each line starts with the indent string as many times as there are brackets open, where closing brackets before the first opening bracket of the line count; the rest of the line is unchanged.", "quantifier": "all documents, brackets in them (also without partner), indent strings and languages", "why_tests_cant": "Levels are kept on a stack that is changed at three places per line; the one test for CSS has a single pair of brackets.", "anchors": ["parce/indent.py:151-200", "parce/indent.py:269-308", "parce/indent.py:332-348", "parce/lang/css.py:301-309"]}
{"id": "C108", "title": "Comparing blocks and cursors", "statement": "Two text ranges are equal when they have the same type, document and positions, and != is the opposite; equal ranges have the same hash; of ranges of the same document exactly one of <, == and > holds, <= is the same as < or ==, and >= the same as > or ==; blocks are ordered like the lines of the document, is_first() and is_last() hold for the first and the last block only, and len() is the length of the text of a block.", "quantifier": "all documents, blocks and cursors", "why_tests_cant": "No test compares blocks or cursors, and that the order agrees with equality for all pairs of ranges is a statement about all documents.", "anchors": ["parce/document.py:440-513", "parce/document.py:709-718"]}
{"id": "C109", "title": "Selecting rules for lxml elements", "statement": "Style.select_lxml_element(element) selects, in their order, exactly the rules with a selector that matches the element at its place in the lxml tree, as select_element does for a tree of Element objects; it raises no exception, also for the root element and for elements that no selector matches.", "quantifier": "all lxml trees, elements, rules and selectors", "why_tests_cant": "There is no test with lxml at all; whether an ancestor is missing depends on the shape of the tree and the selectors.", "anchors": ["parce/css.py:379-389", "parce/css.py:738-780", "parce/css.py:559-667", "parce/css.py:109-114"]}
{"id": "C110", "title": "Validating a lexicon finds wrong rules", "statement": "LexiconValidator.validate() raises nothing, and returns True exactly when every rule has a pattern and an action, there is at most one default action or default target, the default target is checked without error, every other pattern is None or compiles, and every target that any rule can have when it is evaluated is a number or a lexicon; a rule is skipped by the lexicon exactly when there is a warning for that rule.", "quantifier": "all lists of rules, also with rule items, and all texts they are evaluated with", "why_tests_cant": "The tests validate the bundled languages and two small ones, which are all correct, so nothing is tested about wrong rules.", "anchors": ["parce/validate.py:31-113", "parce/lexicon.py:269-283", "parce/ruleitem.py:568-580"]}
{"id": "C111", "title": "Introspection lists what a language has", "statement": "introspect.lexicons() lists exactly the attributes of a language that are lexicons, each once, in the order of their names; rule_items() covers every member that any rule of these lexicons can come to when it is evaluated, and lists nothing that is in no variation of a rule; so standardactions() has every standard action and languages() every other language that a rule can come to.", "quantifier": "all inheritance orders and class dictionaries, all rules with rule items, all texts, matches and arguments", "why_tests_cant": "There are no tests for introspect.py; a list for the bundled languages would not show that no action can be missing.", "anchors": ["parce/introspect.py:47-92", "parce/lexicon.py:206-237", "parce/ruleitem.py:93-103"]}
{"id": "C112", "title": "A document is saved to and loaded from the file its url names", "statement": "localfile() gives the file that a name or a file: url stands for, and raises for all other urls; save() writes exactly the encoded text to that file and changes no other file, and the document is then not modified; loading that url reads the same data; and if save() raises, the document and all files are as before.", "quantifier": "all names and urls, documents, encodings and states of the file system, also when opening or writing fails", "why_tests_cant": "No test saves a document or loads one from a file.", "anchors": ["parce/docio.py:70-132", "parce/docio.py:207-224"]}
{"id": "C113", "title": "The token at a position of a document", "statement": "token(pos) returns the token that starts at (or lies around) the position; otherwise a token that ends at the position; otherwise a token of the same block. It never returns a token that is in a different block, and returns None exactly if there are no tokens in the block.", "quantifier": "all documents, all trees without empty contexts with ordered tokens, all positions", "why_tests_cant": "No test calls token().", "anchors": ["parce/work.py:469-487", "parce/tree.py:798-809", "parce/tree.py:270-278"]}
{"id": "C114", "title": "The transform result is that of the current transformer for the latest text", "statement": "When update() and set_transformer() are called from the main thread, in any order and at any time, then afterwards get_transform(wait=True) returns the result of the current transformer for the latest text (and None only if no transformer is set); it returns when the work is done; no background thread ends with an exception; and never two threads work on the same tree.", "quantifier": "all sequences of calls, all interleavings of the main thread and the background threads", "why_tests_cant": "No test uses a worker or transforms a document in the background, and the interleavings depend on timing.", "anchors": ["parce/work.py:110-157", "parce/work.py:171-213", "parce/work.py:266-286", "parce/transform.py:359-380"]}
{"id": "C115", "title": "Replacing the transformer of a worker", "statement": "After every update() and every set_transformer() of a plain Worker, in any order, the result of the current transformer is the value it gives to the current tree, as if it had never seen another tree.", "quantifier": "all sequences of edits and transformers, all trees, all transforms", "why_tests_cant": "No test sets a transformer of a worker; the wrong result appears only when a transformer comes back after an edit.", "anchors": ["parce/work.py:110-126", "parce/work.py:289-297", "parce/transform.py:300-401"]}
{"id": "C116", "title": "The tree of an XML text", "statement": "For every sequence of well-formed XML pieces (text, references, comments, CDATA sections, processing instructions, empty-element tags and elements with attributes, nested to any depth) the lexer of the language Xml comes to the end, and the tree has exactly the structure of the pieces: the content and end tag of every element in a tag context of its own, attributes and strings in theirs, every comment, CDATA section and processing instruction ended where XML ends it.", "quantifier": "all texts made of well-formed pieces without a document type declaration, all nestings, all meanings of \\s, \\d and \\w outside ASCII", "why_tests_cant": "The tests only print the trees of three example texts and count the nodes of a fourth; what a rule takes from the text of another piece depends on what comes next.", "anchors": ["parce/lang/xml.py:30-153", "parce/language.py:46-58"]}
{"id": "C117", "title": "The encoding found in an XML text", "statement": "For every text that starts with an XML declaration with an encoding, XmlIO.find_encoding() returns that encoding, whatever follows the declaration; for every well-formed text without a declared encoding it returns None.", "quantifier": "all declarations, all texts after them (also cut off anywhere), all meanings of \\s, \\d and \\w outside ASCII", "why_tests_cant": "The one test that reads bytes has a declaration in double quotes and compares the text, not the encoding; the result depends on the quotes, on the other attributes and on later processing instructions.", "anchors": ["parce/lang/xml.py:231-240", "parce/query.py:357-381", "parce/query.py:521-524", "parce/query.py:641-655"]}
{"id": "C118", "title": "The encoding found in a plain text and in a stylesheet", "statement": "For every text with `encoding: xxx`, `coding: xxx` or `encoding=\"xxx\"` IO.find_encoding() returns the first such name, whatever surrounds it, and None for every text without one; for every stylesheet that begins with `@charset \"xxx\";` CssIO.find_encoding() returns that name, and None for every other text.", "quantifier": "all texts, all names, all meanings of \\s and \\w outside ASCII", "why_tests_cant": "No test finds an encoding in a plain text or a stylesheet; where the declaration is and what the name consists of can be anything.", "anchors": ["parce/docio.py:195-204", "parce/lang/css.py:312-323"]}
{"id": "C119", "title": "A new document has the tree and the result of its text", "statement": "A document made from a root lexicon, a text, a worker and a transformer, each given or not, has the tree of its text with its root lexicon, the given lexicon and transformer, and get_transform(True) returns the result of its transformer for its tree; and this stays so when the text, the root lexicon or the transformer is changed.", "quantifier": "all combinations of arguments, all texts, workers in any earlier state, all builders and transformers", "why_tests_cant": "The tests make documents with a text, with or without a lexicon, and look at the text only; each argument left out takes another path.", "anchors": ["parce/work.py:356-372", "parce/work.py:110-157", "parce/work.py:386-410", "parce/work.py:460-466"]}
{"id": "C120", "title": "The tags of an HTML text are read as the elements they are of", "statement": "In the contents of an HTML document or of an element, the start tag of an element with contents leads to the contents of that element (through its attributes if it has them), and its end tag closes it; the start and end tags of a void element (br, img and so on, in any case) open and close nothing; `<style>` and `<script>` (in any case) lead to a stylesheet and a script, which end at their end tags. The tokens of a tag are its delimiters and its name.", "quantifier": "for all names, all white space in tags, all text after the tag, all classes of Unicode characters that agree with ASCII, and all rules of the embedded languages", "why_tests_cant": "The names of elements are unbounded, and the tests only print the tree of one example text; names that begin with a void name, names in capitals inside another element and names with a prefix are not thought of.", "anchors": ["parce/lang/html.py:42", "parce/lang/html.py:48", "parce/lang/html.py:59", "parce/lang/html.py:85", "parce/lang/xml.py:96"]}
{"id": "C121", "title": "The tree of a TOML text", "statement": "For every TOML document of tables, arrays of tables and keys with values (numbers, booleans, dates and times, strings also over more lines, arrays and inline tables in each other) and of comments, the lexer of Toml comes to the end, and the tree has the structure of the document: a header with its name, a key with its parts and dots, and for each value its token, or its context with the parts of the string, the values of the array or the keys and values of the inline table; no token is called invalid.", "quantifier": "all documents, names, values and nesting depths, all white space where TOML allows it, all meanings of \\d, \\s and \\w outside ASCII", "why_tests_cant": "There is no test of the TOML language but one example text, whose tree is printed and not compared; the rules for numbers, dates and keys overlap and their order decides, so each combination of a value with what follows it matters.", "anchors": ["parce/lang/toml.py:34-48", "parce/lang/toml.py:50-171"]}
{"id": "C122", "title": "find_context returns the youngest context at the position", "statement": "For every tree without empty contexts whose tokens do not overlap, and every position, find_context(pos) returns the context itself or a context inside it that begins at or before the position and ends after it, and every context inside it that does so is the returned one or an ancestor of it.", "quantifier": "all trees without empty contexts and with ordered tokens, all positions", "why_tests_cant": "The binary search in every level and the stop condition of the loop meet trees of any depth and positions in gaps between the tokens; no test calls find_context.", "anchors": ["parce/tree.py:787-796", "parce/tree.py:769-785"]}
{"id": "C123", "title": "A switch of an instance is on exactly inside its with blocks", "statement": "For a Switch that is an attribute of a class and every sequence of beginning and ending with blocks, looking at it, and deleting instances: bool(instance.switch) is true exactly when a with block of that instance is open; the switches of different instances do not influence each other.", "quantifier": "all sequences of events, all numbers of instances, all orders in which blocks end", "why_tests_cant": "The states depend on which instances are equal, in what order they are deleted and whether the attribute was asked for on the class; no test uses a switch directly.", "anchors": ["parce/util.py:397-461", "parce/document.py:311-312"]}
{"id": "C124", "title": "The encoding found in an HTML text", "statement": "XHtmlIO.find_encoding returns the encoding that is declared by the first meta element that declares one: the value of its attribute charset, or, when it has http-equiv with the value content-type, what follows charset= in its attribute content. When no meta element declares an encoding, the result is that of XmlIO.find_encoding.", "quantifier": "all trees with any number of meta elements at any place and depth, all attributes and values in any order, names of attributes in any case, all meanings of \\s and \\w outside ASCII", "why_tests_cant": "No test finds an encoding in an HTML text. The value is looked up as the first string context anywhere on the right of the attribute name, and that can be of another attribute.", "anchors": ["parce/lang/html.py:102-129", "parce/query.py:505-530", "parce/query.py:357-374", "parce/query.py:641-655"]}
{"id": "C125", "title": "The position and the end of a range", "statement": "The pos of a Range made from a tree is the position of the first token that ends after start, and its end is the end of the last token that begins before end, or of the last token of the tree; asking for them never raises an error, and every token that lies between start and end lies between pos and end of the range.", "quantifier": "for all trees without empty contexts, with ordered tokens, and all positions start and end, also past the end of the tree", "why_tests_cant": "The trails are found by two searches and then shortened to the common ancestor; a position is only right when the removed part of both trails leads to the ancestor that was kept. No test makes a range.", "anchors": ["parce/tree.py:947-1017"]}
{"id": "C126", "title": "The classes that belong to a language", "statement": "language_sister_class() finds the class in the module of the language that has the name made from the template and is a subclass of the base given; with try_parents, that of the first class in the order of the base classes that has such a sister; and None only if there is none. IO.get(), find_indent() and find_transform() return classes found so, and IO.get() the class it is called on otherwise.", "quantifier": "for all programs of classes with an order of base classes as Python makes it, all templates, and all languages", "why_tests_cant": "Which of the bases are tried depends on the order of all bases of a class, with any number of mixins; the tests only look for the transforms of the bundled languages.", "anchors": ["parce/util.py:796-820", "parce/docio.py:182-190", "parce/indent.py:358-372", "parce/transform.py:453-470"]}
{"id": "C127", "title": "Indenting LilyPond gives each line its level of brackets", "statement": "After indenting a whole LilyPond text, each line has the indent string as many times as there are brackets { and << open at its beginning, without the closing brackets that the line begins with; a closing bracket after any other token counts for the next line, and one without opening bracket is ignored.", "quantifier": "all texts, all tokens of their lines, also of other languages, and all indent strings", "why_tests_cant": "Whether a closing bracket counts for its own line depends on all tokens before it in the line, and the stack of indents on all lines before; the test has five short fragments without Scheme.", "anchors": ["parce/lang/lilypond.py:649-663", "parce/indent.py:151-200", "parce/indent.py:332-348"]}
{"id": "C128", "title": "The registry by section", "statement": "by_section() returns a dictionary with every section that an entry of the registry has, in the order in which the sections first appear, and no other; and each section has exactly the entries of that section, under their qualified names and in the order of the registry.", "quantifier": "all registries", "why_tests_cant": "The order and the number of entries and sections are unbounded. No test calls by_section().", "anchors": ["parce/registry.py:309-314"]}
{"id": "C129", "title": "Formatting a document yields its selection", "statement": "The pieces of text that format_document(cursor) yields are, together, the text that the cursor selects; nothing is yielded when nothing is selected.", "quantifier": "all documents, trees, formatters and cursors", "why_tests_cant": "The pieces come from ranges that are found in the tree, cut to the selection and merged; no test calls format_document() itself.", "anchors": ["parce/formatter.py:282-310", "parce/document.py:615-628"]}
{"id": "C130", "title": "The rules of a theme for an action", "statement": "textformat(action) uses exactly the rules whose classes are all among the names of the action and of its ancestors in lower case; so a rule for an action is also for the actions below it, and the order of the names does not matter: Text.Comment matches exactly the same rules as Comment.Text.", "quantifier": "all actions with any names and any number of ancestors, all rules with all selectors", "why_tests_cant": "Actions are made freely by languages, with any names and depth, and themes are written by users. No test looks up the format of an action.", "anchors": ["parce/theme.py:183-188", "parce/theme.py:531-544", "parce/theme.py:64-81", "parce/standardaction.py:122-129"]}
{"id": "C131", "title": "The rules of a theme for a role and a state", "statement": "baseformat(role, state) uses the rules for the role and the state: a rule for the default state is also for every other state, a rule for the window also for every other role; rules with :focus or :disabled are for that state only, rules with ::selection for the selection only, and rules with the class of a role for that role only.", "quantifier": "all roles, states, and rules with all selectors", "why_tests_cant": "Roles are any strings, and themes are written by users. No test calls baseformat().", "anchors": ["parce/theme.py:146-181", "parce/theme.py:40-48"]}
{"id": "C132", "title": "Combining style sheets", "statement": "The sum of two style sheets has the rules of the first and then those of the second; filenames() of the sum has every file that the rules of both come from, once, the own file first. A theme has the rules of its files in order and then those of its text.", "quantifier": "all style sheets with any nesting of conditions and imports, any number of files", "why_tests_cant": "Sheets contain conditions and imports nested without bound, and the order of a set differs between runs. No test adds style sheets.", "anchors": ["parce/css.py:277-281", "parce/css.py:312-326", "parce/theme.py:129-144"]}
{"id": "C133", "title": "The printed picture of a tree", "statement": "dump() of a node prints one line for each node below it and for itself; each child hangs on an arm below its parent, the last child on the closing arm, and the lines below a child are led past by a bar, or by a blank if no sibling follows. The picture depends on nothing outside the node, and the tree can be read from it.", "quantifier": "all trees, all nodes of a tree, all styles, all representations of nodes", "why_tests_cant": "The prefix of a line is made by walking to the parents as many times as the depth says, asking each whether it is the last; trees have any depth and width. The only call in the tests prints the tree and checks nothing.", "anchors": ["parce/tree.py:58-67", "parce/tree.py:96-114", "parce/tree.py:162-168"]}
{"id": "C134", "title": "Events are the same only with identical lexicons", "statement": "same_events() returns True exactly if both events have the same lexemes and the same target, where the lexicons of the target are identical: derivates of one lexicon with different arguments, although they compare equal, do not make events the same.", "quantifier": "all events, with any number of lexemes and of lexicons pushed", "why_tests_cant": "Only events that push derived lexicons show the difference, at any place in the tuple; no test calls same_events().", "anchors": ["parce/treebuilderutil.py:341-356", "parce/lexicon.py:194-204"]}
{"id": "C135", "title": "Picking from the results of a query", "statement": "A query is true if it has a result; count() is the number of results, pick() the first and pick_last() the last result or the default; slice(start, stop, step) has the results number start, start + step and so on below stop, slice(n) the first n; negative numbers and a step of 0 are refused.", "quantifier": "all queries with any number of results, all arguments", "why_tests_cant": "Any number of results and all steps; the tests only call pick() and count() on a few trees, never slice() or pick_last().", "anchors": ["parce/query.py:246-281", "parce/query.py:574-589"]}
