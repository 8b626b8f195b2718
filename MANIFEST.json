{
 "claims": [
  {
   "property": "C01",
   "status": "proved",
   "theorems": [
    "Parce.C01_context_is_splice",
    "Parce.C01_context_is_splice_distinct",
    "Parce.C01_noop_same_start_ignored"
   ],
   "note": "all texts, all properly nested bodies; no-op assignments are ignored by the code, so same-start requests are stated over the effective ones"
  },
  {
   "property": "C02",
   "status": "proved",
   "theorems": [
    "Parce.C02_report_accurate",
    "Parce.C02_rebuild",
    "Parce.C02_silent_without_effect"
   ],
   "note": ""
  },
  {
   "property": "C03",
   "status": "proved",
   "theorems": [
    "Parce.C03_order_irrelevant"
   ],
   "note": ""
  },
  {
   "property": "C04",
   "status": "proved",
   "theorems": [
    "Parce.C04_failing_context_changes_nothing",
    "Parce.C04_raises_iff",
    "Parce.C04_exception_exit_is_clean"
   ],
   "note": ""
  },
  {
   "property": "C05",
   "status": "partial",
   "theorems": [
    "Parce.C05_violated",
    "Parce.C05_violated_always",
    "Parce.C05_recovery_partial"
   ],
   "note": "violated by the code: pending requests survive the overlap error"
  },
  {
   "property": "C06",
   "status": "proved",
   "theorems": [
    "Parce.C06_read_slice",
    "Parce.C06_read_index",
    "Parce.C06_write",
    "Parce.C06_write_out_of_range",
    "Parce.C06_index_region",
    "Parce.C06_insert_append",
    "Parce.C06_set_text"
   ],
   "note": "slices without step"
  },
  {
   "property": "C07",
   "status": "proved",
   "theorems": [
    "Parce.C07_undo_redo"
   ],
   "note": "any clean document with any stacks"
  },
  {
   "property": "C08",
   "status": "proved",
   "theorems": [
    "Parce.history_inv",
    "Parce.C08_undo_all",
    "Parce.C08_redo_all"
   ],
   "note": "histories without a rejected overlapping block (C05 shows such a block breaks the document)"
  },
  {
   "property": "C09",
   "status": "proved",
   "theorems": [
    "Parce.C09_unmodified_is_saved",
    "Parce.C09_undo_restores_flag",
    "Parce.C09_event"
   ],
   "note": ""
  },
  {
   "property": "C10",
   "status": "partial",
   "theorems": [
    "Parce.C10_edit_discards_redo",
    "Parce.C10_events_exact_partial",
    "Parce.C10_violated",
    "Parce.C10_violated_always"
   ],
   "note": "first half proved; events exact for edits and clear_undo_redo; undo()/redo() never announce the loss of availability"
  },
  {
   "property": "C100",
   "status": "partial",
   "theorems": [
    "Parce.RH.C100_ifeq",
    "Parce.RH.C100_ifmember",
    "Parce.RH.C100_ifgroup",
    "Parce.RH.C100_gselect_partial",
    "Parce.RH.C100_dselect",
    "Parce.RH.C100_findmember",
    "Parce.RH.C100_derive",
    "Parce.RH.C100_arg",
    "Parce.RH.C100_ifarg_partial",
    "Parce.RH.C100_gselect_violated",
    "Parce.RH.C100_ifarg_violated"
   ],
   "note": "Violated by the code: gselect with only None raises, and ifarg takes the empty string and 0 for no argument. All else is proved."
  },
  {
   "property": "C101",
   "status": "partial",
   "theorems": [
    "Parce.Quo.C101_escape",
    "Parce.Quo.C101_quoted_partial",
    "Parce.Quo.C101_plain_partial",
    "Parce.Quo.C101_violated",
    "Parce.Quo.C101_newline_violated"
   ],
   "note": "Violated by the code: `12` and `-` get no quotes although they are no identifiers, and newlines are not escaped. Proved for strings without newlines, and for names that begin like an identifier."
  },
  {
   "property": "C102",
   "status": "partial",
   "theorems": [
    "Parce.TF.C102_round_partial",
    "Parce.TF.C102_words",
    "Parce.TF.C102_violated",
    "Parce.TF.C102_stale_unit_violated",
    "Parce.TF.C102_empty_violated"
   ],
   "note": "Violated by the code in many ways: names of families that get no quotes, system fonts, percentages of stretch, zero, no decoration, stale units and angles are lost. C102_round_partial says exactly which formats are kept; C102_words which attributes always are."
  },
  {
   "property": "C103",
   "status": "partial",
   "theorems": [
    "Parce.FH.C103_shown_partial",
    "Parce.FH.C103_document_partial",
    "Parce.FH.C103_quote_violated",
    "Parce.FH.C103_newline_violated"
   ],
   "note": "Violated by the code: a base format with quotes ends the style attribute, and a newline at the start of the text is not shown. Proved without these."
  },
  {
   "property": "C104",
   "status": "proved",
   "theorems": [
    "Parce.IC.C104_inline",
    "Parce.IC.C104_family",
    "Parce.IC.C104_words",
    "Parce.IC.C104_order"
   ],
   "note": "For values whose strings are closed and that have no semicolon outside strings; C104_family and C104_words show that the values of text formats are such."
  },
  {
   "property": "C105",
   "status": "partial",
   "theorems": [
    "Parce.Thm.C105_add",
    "Parce.Thm.C105_remove",
    "Parce.Thm.C105_copy_partial",
    "Parce.Thm.C105_copy_formats_partial",
    "Parce.Thm.C105_copy_violated",
    "Parce.Thm.C105_base_violated",
    "Parce.Thm.C105_simple_violated"
   ],
   "note": "Violated by the code: copying themes of a formatter to itself removes them all, a base format that is None is not copied, and copying from a SimpleFormatter raises an exception. All else is proved."
  },
  {
   "property": "C106",
   "status": "partial",
   "theorems": [
    "Parce.FC.C106_ranges",
    "Parce.FC.C106_switches",
    "Parce.FC.C106_theme",
    "Parce.FC.C106_late_partial",
    "Parce.FC.C106_violated",
    "Parce.FC.C106_always_violated"
   ],
   "note": "Violated by the code: the last range before a switch is always yielded after it, because merge_adjacent (and fix_boundaries, for a part of the text) hold a range back. All else is proved; C106_late_partial says exactly how late ranges are."
  },
  {
   "property": "C107",
   "status": "proved",
   "theorems": [
    "Parce.Ind.C107_levels",
    "Parce.Ind.C107_balanced",
    "Parce.Ind.C107_runs",
    "Parce.Ind.C107_css"
   ],
   "note": "The rest of a line is the line without its indent; a line with only white space is kept after the new indent (see C59)."
  },
  {
   "property": "C108",
   "status": "partial",
   "theorems": [
    "Parce.TR.C108_eq",
    "Parce.TR.C108_order_partial",
    "Parce.TR.C108_lines",
    "Parce.TR.C108_first_last",
    "Parce.TR.C108_violated",
    "Parce.TR.C108_hash_violated"
   ],
   "note": "Violated by the code: cursors with the same position and different ends are <= in both directions, but not equal; equal ranges have different hashes. Proved for blocks."
  },
  {
   "property": "C109",
   "status": "partial",
   "theorems": [
    "Parce.Lx.C109_match_partial",
    "Parce.Lx.C109_siblings",
    "Parce.Lx.C109_select_partial",
    "Parce.Lx.C109_descendant_violated",
    "Parce.Lx.C109_child_violated",
    "Parce.Lx.C109_query_violated"
   ],
   "note": "Violated by the code: select_lxml_element always raises, and matching raises AttributeError when it goes up beyond the root element. Proved: every answer that is given is right; selectors with sibling combinators only are always answered; exactly when a missing ancestor raises."
  },
  {
   "property": "C11",
   "status": "proved",
   "theorems": [
    "Parce.C11_cursors_follow"
   ],
   "note": ""
  },
  {
   "property": "C110",
   "status": "partial",
   "theorems": [
    "Parce.VL.C110_static",
    "Parce.VL.C110_targets_partial",
    "Parce.VL.C110_skipped",
    "Parce.VL.C110_skip_violated",
    "Parce.VL.C110_group_violated",
    "Parce.VL.C110_using_violated",
    "Parce.VL.C110_false_action_violated",
    "Parce.VL.C110_raise_violated"
   ],
   "note": "Violated by the code: targets after skip or an empty group action are not looked at, actions in the place of targets pass, a default action that is false for Python is forgotten, and a bare variable raises. Proved: exact for rules that need no evaluation; evaluated targets are numbers and lexicons outside of these cases; warnings are exactly for the rules that are skipped."
  },
  {
   "property": "C111",
   "status": "partial",
   "theorems": [
    "Parce.Isp.C111_lexicons_partial",
    "Parce.Isp.C111_items_partial",
    "Parce.Isp.C111_only_partial",
    "Parce.Isp.C111_actions_partial",
    "Parce.Isp.C111_languages_partial",
    "Parce.Isp.C111_override_violated",
    "Parce.Isp.C111_mixin_violated",
    "Parce.Isp.C111_call_violated"
   ],
   "note": "Violated by the code: a lexicon replaced with None in a subclass is listed as None and rule_items raises, lexicons of a class after Language are not listed, and a call among the items of a select raises. Proved outside of these cases, also for rules with skip."
  },
  {
   "property": "C112",
   "status": "partial",
   "theorems": [
    "Parce.SL.C112_localfile",
    "Parce.SL.C112_names",
    "Parce.SL.C112_save",
    "Parce.SL.C112_error_partial",
    "Parce.SL.C112_load",
    "Parce.SL.C112_percent_violated",
    "Parce.SL.C112_query_violated",
    "Parce.SL.C112_colon_violated",
    "Parce.SL.C112_attributes_violated",
    "Parce.SL.C112_lost_violated"
   ],
   "note": "Violated by the code: percent signs in a file: url are not decoded and a question mark cuts it off, names like C:/a.txt are refused, a save() that raises has changed the url and the encoding already, and the old contents are lost if writing fails. Proved: exactly which file is used, and everything about saving without an error."
  },
  {
   "property": "C113",
   "status": "partial",
   "theorems": [
    "Parce.C113_starts",
    "Parce.C113_ends_partial",
    "Parce.C113_block_partial",
    "Parce.C113_none_partial",
    "Parce.C113_some_partial",
    "Parce.C113_end_violated",
    "Parce.C113_block_violated",
    "Parce.C113_left_violated"
   ],
   "note": "Violated by the code: at the end of the last token None is returned (in every document), a token that ends with the newline is returned for the next line, and a token of the block that is to the left but does not touch the position is not found. Proved: the token around the position, and the other parts without these cases."
  },
  {
   "property": "C114",
   "status": "partial",
   "theorems": [
    "Parce.WT.C114_result_partial",
    "Parce.WT.C114_noerror_partial",
    "Parce.WT.C114_ends_partial",
    "Parce.WT.C114_stale_violated",
    "Parce.WT.C114_raise_violated",
    "Parce.WT.C114_lost_violated",
    "Parce.WT.C114_early_violated",
    "Parce.WT.C114_two_violated",
    "Parce.WT.C114_none_violated",
    "Parce.WT.C114_interrupted"
   ],
   "note": "Violated by the code: an update() during a transform makes get_transform return the old result, or two threads run the same transformer and one ends with a KeyError and its result is lost; a transformer set at the wrong moment is never run, or get_transform returns None before it has run; and setting the first transformer while the tree is built starts a second build of the same tree; and an interrupted run can replace the stored result by none. Proved: all of it for executions in which process() is not started while another one is running."
  },
  {
   "property": "C115",
   "status": "partial",
   "theorems": [
    "Parce.Sw.C115_result_partial",
    "Parce.Sw.C115_set_partial",
    "Parce.Sw.C115_back_violated"
   ],
   "note": "Violated by the code: only the current transformer is told which contexts changed, so a transformer that comes back after an edit uses old values. Proved: the result is right after every step of every history in which no transformer comes back after an edit it missed."
  },
  {
   "property": "C116",
   "status": "partial",
   "theorems": [
    "Parce.Xml.C116_tree_partial",
    "Parce.Xml.C116_comment_violated",
    "Parce.Xml.C116_space_violated",
    "Parce.Xml.C116_pi_violated"
   ],
   "note": "Violated by the code: a web address at the end of a comment takes the closing dashes; an apostrophe in a processing instruction opens a string that runs past its end; spaces that are not XML white space count as white space. Proved for all pieces without these: the lexer finishes and the tree is the expected one."
  },
  {
   "property": "C117",
   "status": "partial",
   "theorems": [
    "Parce.Xml.C117_declared_partial",
    "Parce.Xml.C117_none_partial",
    "Parce.Xml.C117_other_violated",
    "Parce.Xml.C117_single_violated",
    "Parce.Xml.C117_elsewhere_violated"
   ],
   "note": "Violated by the code: values in single quotes are skipped, so the value of a later attribute is returned, or nothing; and an attribute of any processing instruction counts. Proved: with double quotes the declared encoding is found before any further text; none is found in well-formed texts where no processing instruction has such an attribute."
  },
  {
   "property": "C118",
   "status": "partial",
   "theorems": [
    "Parce.FEnc.C118_told_partial",
    "Parce.FEnc.C118_untold",
    "Parce.FEnc.C118_css_partial",
    "Parce.FEnc.C118_css_none_partial",
    "Parce.FEnc.C118_coding_violated",
    "Parce.FEnc.C118_css_comment_violated",
    "Parce.FEnc.C118_css_name_violated"
   ],
   "note": "Violated by the code: `coding: xxx` is not recognised; in stylesheets a declaration in a comment or in the middle counts, and names with other characters than letters, digits, `-` and `_` are not found. Proved: the first `encoding: xxx` or `encoding=\"xxx\"` of any text is found, and nothing in a text without the word; the declaration at the start of a stylesheet is found if its name has only those characters, and nothing in a text without `@charset`."
  },
  {
   "property": "C119",
   "status": "partial",
   "theorems": [
    "Parce.DI.C119_new_partial",
    "Parce.DI.C119_tree_partial",
    "Parce.DI.C119_stays",
    "Parce.DI.C119_transformer",
    "Parce.DI.C119_lexicon_violated",
    "Parce.DI.C119_transformer_violated",
    "Parce.DI.C119_result_violated",
    "Parce.DI.C119_empty_violated"
   ],
   "note": "Violated by the code: with a worker that has a root lexicon the text is not tokenized if none is given, and a given transformer is ignored; with a used worker and an empty text the old result stays; a new document with an empty text has no result. Proved: with a lexicon and a text all is right, whatever the worker did before; without a worker the tree is right; and all later changes keep tree and result right."
  },
  {
   "property": "C12",
   "status": "partial",
   "theorems": [
    "Parce.C12_violated_coordinates",
    "Parce.C12_violated_skip",
    "Parce.C12_positions_partial"
   ],
   "note": "violated by the code for batches"
  },
  {
   "property": "C120",
   "status": "partial",
   "theorems": [
    "Parce.Html.C120_open_partial",
    "Parce.Html.C120_open_attrs_partial",
    "Parce.Html.C120_close_partial",
    "Parce.Html.C120_void_partial",
    "Parce.Html.C120_void_attrs_partial",
    "Parce.Html.C120_void_close_partial",
    "Parce.Html.C120_attrs_end",
    "Parce.Html.C120_raw",
    "Parce.Html.C120_raw_attrs",
    "Parce.Html.C120_style_end",
    "Parce.Html.C120_script_end",
    "Parce.Html.C120_prefix_violated",
    "Parce.Html.C120_case_violated",
    "Parce.Html.C120_style_violated",
    "Parce.Html.C120_script_violated",
    "Parce.Html.C120_close_violated"
   ],
   "note": "Violated by the code: <colgroup> is read as <col with attributes, <BR> inside an element opens a context, <STYLE> in the document leads to nothing, <script-x> is read as a script, </x:br> closes nothing. Proved for names that do not begin with a void name, style or script, and have no prefix; for void names that are in lower case inside elements; and for style and script in lower case."
  },
  {
   "property": "C121",
   "status": "partial",
   "theorems": [
    "Parce.Toml.C121_tree_partial",
    "Parce.Toml.C121_dot_violated",
    "Parce.Toml.C121_escape_violated",
    "Parce.Toml.C121_quote_violated"
   ],
   "note": "Violated by the code: a dot directly after a quoted part of a key is invalid, the escape \\UXXXXXXXX is invalid, and a fourth quote at the end of a multi-line string is invalid. Proved for all documents without these, with comments and multi-line strings (but no addresses, URLs or alert words in comments): the lexer finishes and the tree is the expected one."
  },
  {
   "property": "C122",
   "status": "proved",
   "theorems": [
    "Parce.C122_find_context"
   ],
   "note": ""
  },
  {
   "property": "C123",
   "status": "partial",
   "theorems": [
    "Parce.Swi.C123_switch_partial",
    "Parce.Swi.C123_equal_violated",
    "Parce.Swi.C123_class_violated"
   ],
   "note": "Violated by the code: equal instances share one switch, which is lost when the first of them is deleted, and asking for the attribute on the class (which raises a TypeError) replaces the dictionary, so that all switches that are on are off. Proved for instances that are only equal to themselves, if the attribute is not asked for on the class."
  },
  {
   "property": "C124",
   "status": "partial",
   "theorems": [
    "Parce.Html.C124_declared_partial",
    "Parce.Html.C124_none_partial",
    "Parce.Html.C124_single_violated",
    "Parce.Html.C124_bare_violated",
    "Parce.Html.C124_empty_violated",
    "Parce.Html.C124_case_violated",
    "Parce.Html.C124_quoted_violated"
   ],
   "note": "Violated by the code: with a value in single quotes or without quotes, the value of the next attribute in double quotes is taken; an empty value gives the quote; META in upper case is not seen; quotes after charset= in content are not allowed for. Proved for all trees with meta elements of which the attributes are in double quotes and not empty. The step from the text to the tree is not proved here (only evaluated, in the witnesses and the example); C120 has the tags."
  },
  {
   "property": "C125",
   "status": "proved",
   "theorems": [
    "Parce.C125_bounds",
    "Parce.C125_covers"
   ],
   "note": "Proved for every range from_tree returns, for all trees without empty contexts and with ordered tokens."
  },
  {
   "property": "C126",
   "status": "partial",
   "theorems": [
    "Parce.Sis.C126_own",
    "Parce.Sis.C126_parents_partial",
    "Parce.Sis.C126_sound",
    "Parce.Sis.C126_none",
    "Parce.Sis.C126_kind",
    "Parce.Sis.C126_io",
    "Parce.Sis.C126_indent_transform",
    "Parce.Sis.C126_mixin_violated"
   ],
   "note": "Proved for the language and its parents that are languages. A parent that is not a language is not tried when it is the last base."
  },
  {
   "property": "C127",
   "status": "partial",
   "theorems": [
    "Parce.Ind.C127_levels_partial",
    "Parce.Ind.C127_scheme_violated"
   ],
   "note": "Proved for all texts where each line begins in LilyPond. A closing bracket after Scheme at the start of a line counts for that line."
  },
  {
   "property": "C128",
   "status": "proved",
   "theorems": [
    "Parce.Reg.C128_by_section",
    "Parce.Reg.C128_found"
   ],
   "note": "For all registries; that no two entries have the same key is what a dictionary ensures."
  },
  {
   "property": "C129",
   "status": "partial",
   "theorems": [
    "Parce.C129_selection_partial",
    "Parce.C129_nothing",
    "Parce.C129_violated"
   ],
   "note": "Violated by the code for a selection between the tokens of two contexts, as C39. Proved for selections that touch a token with one theme, for the whole document, and without a selection."
  },
  {
   "property": "C13",
   "status": "proved",
   "theorems": [
    "Parce.joinLines_linesOf",
    "Parce.C13_blocks_partition",
    "Parce.C13_adjacent",
    "Parce.C13_blocks_range"
   ],
   "note": "one-character separator"
  },
  {
   "property": "C130",
   "status": "partial",
   "theorems": [
    "Parce.Css.C130_rule",
    "Parce.Css.C130_below_partial",
    "Parce.Css.C130_order_violated"
   ],
   "note": "Violated by the code for rules with an attribute selector on the text of `class`: the documentation says that the order of the names does not matter. Proved for all rules without such a selector. Lower case is made per character."
  },
  {
   "property": "C131",
   "status": "partial",
   "theorems": [
    "Parce.Css.C131_state",
    "Parce.Css.C131_window_partial",
    "Parce.Css.C131_only",
    "Parce.Css.C131_window_violated"
   ],
   "note": "States and the rules for one role or state: proved. A rule for the window is for every role, but not with an attribute selector on the text of `class`."
  },
  {
   "property": "C132",
   "status": "partial",
   "theorems": [
    "Parce.Sheet.C132_rules",
    "Parce.Sheet.C132_filenames_partial",
    "Parce.Sheet.C132_theme",
    "Parce.Sheet.C132_twice_violated",
    "Parce.Sheet.C132_first_violated"
   ],
   "note": "Violated by the code: the name of a file imported with a condition is there twice, and the names are in the order of a set. The rules, and which names there are, are proved for all sheets."
  },
  {
   "property": "C133",
   "status": "proved",
   "theorems": [
    "Parce.Dump.C133_picture",
    "Parce.Dump.C133_lines",
    "Parce.Dump.C133_shape",
    "Parce.Dump.C133_styles"
   ],
   "note": "The text of a node itself (`repr`) is a parameter."
  },
  {
   "property": "C134",
   "status": "proved",
   "theorems": [
    "Parce.Ev.C134_same",
    "Parce.Ev.C134_needed"
   ],
   "note": "Lexemes are compared as values. It says why the model of the tree builder may use equality of events."
  },
  {
   "property": "C135",
   "status": "proved",
   "theorems": [
    "Parce.Qp.C135_bool",
    "Parce.Qp.C135_count",
    "Parce.Qp.C135_pick",
    "Parce.Qp.C135_pick_last",
    "Parce.Qp.C135_slice",
    "Parce.Qp.C135_slice_end",
    "Parce.Qp.C135_first",
    "Parce.Qp.C135_refused"
   ],
   "note": "`itertools.islice` is modelled by the loop its documentation gives."
  },
  {
   "property": "C14",
   "status": "proved",
   "theorems": [
    "Parce.C14_find_block",
    "Parce.C14_unique"
   ],
   "note": "one-character separator"
  },
  {
   "property": "C15",
   "status": "proved",
   "theorems": [
    "Parce.C15_by_number",
    "Parce.C15_none",
    "Parce.obtained_good",
    "Parce.C15_block_number",
    "Parce.C15_blocks_obtained"
   ],
   "note": "one-character separator"
  },
  {
   "property": "C16",
   "status": "proved",
   "theorems": [
    "Parce.C16_next_previous"
   ],
   "note": "one-character separator"
  },
  {
   "property": "C17",
   "status": "proved",
   "theorems": [
    "Parce.C17_compose",
    "Parce.C17_add",
    "Parce.C17_none_iff",
    "Parce.C17_make"
   ],
   "note": ""
  },
  {
   "property": "C18",
   "status": "proved",
   "theorems": [
    "Parce.C18_root_kept",
    "Parce.C18_lexer_stack"
   ],
   "note": "for every language and text, also without assumptions on the regular expressions"
  },
  {
   "property": "C19",
   "status": "proved",
   "theorems": [
    "Parce.C19_lexemes_ordered",
    "Parce.C19_plain"
   ],
   "note": "for actions that expand a token within the token"
  },
  {
   "property": "C20",
   "status": "partial",
   "theorems": [
    "Parce.C20_violated",
    "Parce.C20_complete_partial",
    "Parce.C20_prefix_partial"
   ],
   "note": "violated by the code when empty matches enter lexicons in a circle; proved when matches of the empty string do not enter a lexicon"
  },
  {
   "property": "C21",
   "status": "proved",
   "theorems": [
    "Parce.C21_tree_mirrors_events",
    "Parce.C21_tokens",
    "Parce.C21_build_tree"
   ],
   "note": ""
  },
  {
   "property": "C22",
   "status": "proved",
   "theorems": [
    "Parce.C22_lexemes_ne",
    "Parce.C22_no_empty_contexts",
    "Parce.C22_first_last",
    "Parce.C22_built_ordered"
   ],
   "note": "C22_built_ordered shows that built trees satisfy the hypotheses of C26-C31"
  },
  {
   "property": "C23",
   "status": "partial",
   "theorems": [
    "Parce.C23_violated",
    "Parce.C23_violated_end",
    "Parce.C23_violated_bounded",
    "Parce.C23_violated_grows",
    "Parce.C23_terminates_partial",
    "Parce.C23_terminates_pops_partial",
    "Parce.C23_circular_partial",
    "Parce.C23_defaults_partial"
   ],
   "note": "violated by the code; proved when targets followed without consuming text decrease a measure, and when circular ones enter at most one lexicon at a time and the stack remains below some height, so that the detection of circular targets works"
  },
  {
   "property": "C24",
   "status": "proved",
   "theorems": [
    "Parce.C24_literal"
   ],
   "note": ""
  },
  {
   "property": "C25",
   "status": "proved",
   "theorems": [
    "Parce.C25_resume",
    "Parce.C25_position"
   ],
   "note": ""
  },
  {
   "property": "C26",
   "status": "proved",
   "theorems": [
    "Parce.C26_find_token",
    "Parce.C26_find_token_left",
    "Parce.C26_find_token_after",
    "Parce.C26_find_token_before"
   ],
   "note": ""
  },
  {
   "property": "C27",
   "status": "proved",
   "theorems": [
    "Parce.C27_trail",
    "Parce.C27_trail_left"
   ],
   "note": ""
  },
  {
   "property": "C28",
   "status": "proved",
   "theorems": [
    "Parce.C28_forward_backward",
    "Parce.C28_unique",
    "Parce.C28_next_previous",
    "Parce.C28_including"
   ],
   "note": ""
  },
  {
   "property": "C29",
   "status": "proved",
   "theorems": [
    "Parce.C29_tokens",
    "Parce.C29_height",
    "Parce.C29_copy"
   ],
   "note": "height for trees without empty contexts, which are all the trees built (C22)"
  },
  {
   "property": "C30",
   "status": "proved",
   "theorems": [
    "Parce.C30_group",
    "Parce.C30_built_in_pieces",
    "Parce.C30_every_event",
    "Parce.C30_disjoint"
   ],
   "note": ""
  },
  {
   "property": "C31",
   "status": "partial",
   "theorems": [
    "Parce.C31_range_partial",
    "Parce.C31_none",
    "Parce.C31_empty",
    "Parce.C31_violated"
   ],
   "note": "violated by the code for a range in a gap between tokens; proved when at least one token is touched"
  },
  {
   "property": "C32",
   "status": "partial",
   "theorems": [
    "Parce.C32_merge_partial",
    "Parce.C32_sequence_partial",
    "Parce.C32_insert_before_partial",
    "Parce.C32_removed_none",
    "Parce.C32_start_never_decreases",
    "Parce.C32_violated",
    "Parce.C32_violated_always",
    "Parce.C32_root",
    "Parce.C32_has_changes",
    "Parce.C32_new_position"
   ],
   "note": "violated by the code: the start of the merged region never decreases; proved for changes that do not start before the region"
  },
  {
   "property": "C33",
   "status": "partial",
   "theorems": [
    "Parce.RB.C33_edit_partial",
    "Parce.RB.C33_edits_partial",
    "Parce.RB.C33_behind_partial",
    "Parce.RB.C33_root",
    "Parce.RB.C33_no_lexicon",
    "Parce.RB.C33_lookahead_violated",
    "Parce.RB.C33_lookbehind_violated",
    "Parce.RB.C33_subgroup_violated",
    "Parce.RB.C33_derived_root_violated"
   ],
   "note": "proved for every edit and text, for languages that look at most 9 characters ahead, not behind (or one character behind, as with a word boundary, if tokens of a lexicon with the same text and action have the same target), and whose actions keep the start of a match; violated otherwise (lookahead of 12, lookbehind of 1, a subgroup action dropping the start, a root lexicon derived from the old one); changes arriving during a build are in C34"
  },
  {
   "property": "C34",
   "status": "partial",
   "theorems": [
    "Parce.C34_no_lost_change",
    "Parce.C34_progress",
    "Parce.C34_terminates",
    "Parce.C34_violated_exclusive",
    "Parce.C34_exclusive_partial"
   ],
   "note": "no change is lost, no deadlock, for every interleaving of any number of threads; exclusion is violated by the code when calls of rebuild() overlap and proved when they do not"
  },
  {
   "property": "C35",
   "status": "partial",
   "theorems": [
    "Parce.C35_violated",
    "Parce.C35_root_current_partial",
    "Parce.C35_quiescent"
   ],
   "note": "violated by the code: the previous process() resets the tree state of the next one; proved when at most one thread is in process()"
  },
  {
   "property": "C36",
   "status": "proved",
   "theorems": [
    "Parce.Obs.C36_observable",
    "Parce.Obs.C36_connected",
    "Parce.Obs.C36_once",
    "Parce.Obs.C36_violated_reentrant"
   ],
   "note": "for every sequence of operations; with functions that disconnect during emit the claim fails (C36_violated_reentrant)"
  },
  {
   "property": "C37",
   "status": "partial",
   "theorems": [
    "Parce.OL.C37_violated",
    "Parce.OL.C37_same_lock_partial",
    "Parce.OL.C37_no_error",
    "Parce.OL.C37_exclusive_partial"
   ],
   "note": "violated by the code: the lock is forgotten while others wait for it; proved while no thread waits"
  },
  {
   "property": "C38",
   "status": "partial",
   "theorems": [
    "Parce.C38_merge",
    "Parce.C38_factory",
    "Parce.C38_fix",
    "Parce.C38_violated_default"
   ],
   "note": "violated by the code with the default factory, which raises TypeError; proved for every factory that works"
  },
  {
   "property": "C39",
   "status": "partial",
   "theorems": [
    "Parce.C39_format_ranges_partial",
    "Parce.C39_text_partial",
    "Parce.C39_violated_gap",
    "Parce.C39_violated_languages"
   ],
   "note": "violated by the code for a range in a gap, and for several themes with a part of the tree; proved for one theme when a token is touched, for the whole tree with any number of themes, and without theme"
  },
  {
   "property": "C40",
   "status": "proved",
   "theorems": [
    "Parce.C40_escape",
    "Parce.C40_attrescape",
    "Parce.C40_html",
    "Parce.C40_document"
   ],
   "note": "C40_document inherits the hypotheses of C39_text_partial; the rest holds for all texts and formats"
  },
  {
   "property": "C41",
   "status": "partial",
   "theorems": [
    "Parce.C41_bom_partial",
    "Parce.C41_none",
    "Parce.C41_lossless",
    "Parce.C41_violated"
   ],
   "note": "violated by the code for UTF-32-LE; proved for the other encodings"
  },
  {
   "property": "C42",
   "status": "proved",
   "theorems": [
    "Parce.C42_split_list",
    "Parce.C42_unroll"
   ],
   "note": ""
  },
  {
   "property": "C43",
   "status": "partial",
   "theorems": [
    "Parce.RI.C43_item_partial",
    "Parce.RI.C43_rule_partial",
    "Parce.RI.C43_pattern",
    "Parce.RI.C43_constant_partial",
    "Parce.RI.C43_needed",
    "Parce.RI.C43_index",
    "Parce.RI.C43_violated_select",
    "Parce.RI.C43_violated_needs",
    "Parce.RI.C43_violated_raise"
   ],
   "note": "violated by the code for calls chosen by a select and for delegate or pattern items with a call inside; proved for rules without these and with constant subgroup actions, when pre-evaluation does not raise"
  },
  {
   "property": "C44",
   "status": "partial",
   "theorems": [
    "Parce.RI.C44_variations_partial",
    "Parce.RI.C44_tree_partial",
    "Parce.RI.C44_violated_skip"
   ],
   "note": "violated by the code for rules with skip; proved for rules without skip and nested lists, for all environments"
  },
  {
   "property": "C45",
   "status": "partial",
   "theorems": [
    "Parce.Rx.C45_words_partial",
    "Parce.Rx.C45_unambiguous",
    "Parce.Rx.C45_violated_empty"
   ],
   "note": "violated by the code for the empty list of words (the empty string is matched); proved for every non-empty list, with a grammar of regular expressions in which a text has exactly one meaning"
  },
  {
   "property": "C46",
   "status": "proved",
   "theorems": [
    "Parce.Rx.C46_charclass",
    "Parce.Rx.C46_unambiguous"
   ],
   "note": ""
  },
  {
   "property": "C47",
   "status": "partial",
   "theorems": [
    "Parce.C47_events_partial",
    "Parce.C47_events_index",
    "Parce.C47_text_partial",
    "Parce.C47_violated_end",
    "Parce.C47_violated_untransformed"
   ],
   "note": "Holds for transforms without @add_untransformed (or without missing methods) when the text does not end in a context without a method; otherwise the code raises IndexError or gives another value."
  },
  {
   "property": "C48",
   "status": "partial",
   "theorems": [
    "Parce.C48_cached",
    "Parce.C48_fresh",
    "Parce.C48_process",
    "Parce.C48_invalidate",
    "Parce.C48_violated_invalidate"
   ],
   "note": "Proved for every tree, cache and interruption; invalidate_node raises KeyError for a context that was never transformed and then leaves wrong entries."
  },
  {
   "property": "C49",
   "status": "proved",
   "theorems": [
    "Parce.C49_grouped",
    "Parce.C49_peek"
   ],
   "note": ""
  },
  {
   "property": "C50",
   "status": "proved",
   "theorems": [
    "Parce.C50_all",
    "Parce.C50_allcontexts",
    "Parce.C50_alltokens",
    "Parce.C50_once"
   ],
   "note": ""
  },
  {
   "property": "C51",
   "status": "partial",
   "theorems": [
    "Parce.C51_select",
    "Parce.C51_complement_partial",
    "Parce.C51_in_range_partial",
    "Parce.C51_violated"
   ],
   "note": "violated by the code for in_range: a node that is partly in the range is yielded by neither; proved for all other selectors"
  },
  {
   "property": "C52",
   "status": "proved",
   "theorems": [
    "Parce.C52_delete",
    "Parce.C52_tokens"
   ],
   "note": "for trees with the tokens in order and without empty contexts, as built by the tree builder"
  },
  {
   "property": "C53",
   "status": "partial",
   "theorems": [
    "Parce.Css.C53_cascade_partial",
    "Parce.Css.C53_violated_important",
    "Parce.Css.C53_violated_raise"
   ],
   "note": "violated by the code: !important of the first declaration seen is not recorded; an empty value or prelude raises; the partial theorem covers the rest"
  },
  {
   "property": "C54",
   "status": "partial",
   "theorems": [
    "Parce.Css.C54_compound",
    "Parce.Css.C54_sound",
    "Parce.Css.C54_match_partial",
    "Parce.Css.C54_prelude",
    "Parce.Css.C54_violated_child",
    "Parce.Css.C54_violated_sibling",
    "Parce.Css.C54_violated_universal",
    "Parce.Css.C54_violated_empty"
   ],
   "note": "violated by the code: no backtracking over combinators, the universal selector matches nothing, an empty attribute value matches anything; matching is proved sound and complete where no backtracking is needed"
  },
  {
   "property": "C55",
   "status": "partial",
   "theorems": [
    "Parce.Col.C55_hex6",
    "Parce.Col.C55_hex3",
    "Parce.Col.C55_hex8",
    "Parce.Col.C55_hex4",
    "Parce.Col.C55_rgb_partial",
    "Parce.Col.C55_range",
    "Parce.Col.C55_violated_zero",
    "Parce.Col.C55_violated_opacity"
   ],
   "note": "violated by the code: zero components are dropped, alpha percentages are floored; hexadecimal colours are proved completely"
  },
  {
   "property": "C56",
   "status": "partial",
   "theorems": [
    "Parce.Theme.C56_self",
    "Parce.Theme.C56_add",
    "Parce.Theme.C56_sub",
    "Parce.Theme.C56_values",
    "Parce.Theme.C56_restore_partial",
    "Parce.Theme.C56_violated"
   ],
   "note": "violated by the code for properties that are explicitly None; equal values are proved for all formats"
  },
  {
   "property": "C57",
   "status": "partial",
   "theorems": [
    "Parce.SA.C57_same",
    "Parce.SA.C57_different",
    "Parce.SA.C57_path",
    "Parce.SA.C57_in",
    "Parce.SA.C57_and",
    "Parce.SA.C57_violated_half",
    "Parce.SA.C57_violated_reserved"
   ],
   "note": "sameness holds for every interleaving; violated by the code while an action is being made (another thread can get it without its name and parent) and for the names _name and _parent"
  },
  {
   "property": "C58",
   "status": "partial",
   "theorems": [
    "Parce.Reg.C58_qualname",
    "Parce.Reg.C58_suggest",
    "Parce.Reg.C58_find_partial",
    "Parce.Reg.C58_violated_empty",
    "Parce.Reg.C58_docstring_violated"
   ],
   "note": "violated by the code: the fallback of an empty registry is not consulted; the documented priority of the file name does not hold; the rest is proved"
  },
  {
   "property": "C59",
   "status": "partial",
   "theorems": [
    "Parce.Ind.C59_partial",
    "Parce.Ind.C59_violated"
   ],
   "note": "violated by the code for lines without text in an indented part (they get more white space every time); proved for documents where the lines that may be indented have text"
  },
  {
   "property": "C60",
   "status": "partial",
   "theorems": [
    "Parce.Ind.C60_never_empty",
    "Parce.Ind.C60_increase",
    "Parce.Ind.C60_decrease",
    "Parce.Ind.C60_inverse_partial",
    "Parce.Ind.C60_violated"
   ],
   "note": "the stack is never emptied, for all events; the inverse is violated by the code for lines without text and proved for the others"
  },
  {
   "property": "C61",
   "status": "partial",
   "theorems": [
    "Parce.Val.C61_terminates",
    "Parce.Val.C61_sound_partial",
    "Parce.Val.C61_invalid",
    "Parce.Val.C61_violated",
    "Parce.Val.C61_false_alarm"
   ],
   "note": "termination is proved completely; soundness is violated by the code when the target leaves the first context (silent return) and proved otherwise"
  },
  {
   "property": "C62",
   "status": "proved",
   "theorems": [
    "Parce.C62_uniq",
    "Parce.C62_remove_descendants",
    "Parce.C62_remove_ancestors",
    "Parce.C62_range",
    "Parce.C62_children"
   ],
   "note": ""
  },
  {
   "property": "C63",
   "status": "proved",
   "theorems": [
    "Parce.Css.C63_prelude",
    "Parce.Css.C63_alternates"
   ],
   "note": ""
  },
  {
   "property": "C64",
   "status": "partial",
   "theorems": [
    "Parce.Theme.C64_size_partial",
    "Parce.Theme.C64_violated"
   ],
   "note": "violated by the code: the unit of an earlier size is written behind a size word, a size of zero is not written"
  },
  {
   "property": "C65",
   "status": "proved",
   "theorems": [
    "Parce.Reg.C65_add",
    "Parce.Reg.C65_inherit",
    "Parce.Reg.C65_errors"
   ],
   "note": ""
  },
  {
   "property": "C66",
   "status": "proved",
   "theorems": [
    "Parce.Ind.C66_strip",
    "Parce.Ind.C66_stripEnd",
    "Parce.Ind.C66_again"
   ],
   "note": ""
  },
  {
   "property": "C67",
   "status": "proved",
   "theorems": [
    "Parce.Ind.C67_indent",
    "Parce.Ind.C67_auto"
   ],
   "note": "for indenters whose strings are white space and that do not report CURRENT_INDENT (all bundled ones)"
  },
  {
   "property": "C68",
   "status": "partial",
   "theorems": [
    "Parce.Ind.C68_partial",
    "Parce.Ind.C68_no_indent",
    "Parce.Ind.C68_violated_two",
    "Parce.Ind.C68_violated_close_open"
   ],
   "note": "violated by the code for lines that open two levels, or that close and open a level; proved for simple lines"
  },
  {
   "property": "C69",
   "status": "proved",
   "theorems": [
    "Parce.RB.C69_range",
    "Parce.RB.C69_builds",
    "Parce.RB.C69_events",
    "Parce.RB.C69_events_from"
   ],
   "note": "for a start token that begins a group or is single, and a last token that ends a group or is single"
  },
  {
   "property": "C70",
   "status": "proved",
   "theorems": [
    "Parce.C70_meaning",
    "Parce.C70_way",
    "Parce.C70_preferred",
    "Parce.C70_first_rule",
    "Parce.C70_none",
    "Parce.C70_advance",
    "Parce.C70_lexicon",
    "Parce.C70_restartable",
    "Parce.C70_restartable1",
    "Parce.C70_terminates"
   ],
   "note": "regular expressions without backreferences, conditional and atomic groups; the preferred match is specified by comparing the first choice in which two ways to match differ"
  },
  {
   "property": "C71",
   "status": "partial",
   "theorems": [
    "Parce.Json.C71_finishes",
    "Parce.Json.C71_value_partial",
    "Parce.Json.C71_edited_partial",
    "Parce.Json.C71_pair_violated",
    "Parce.Json.C71_int_violated"
   ],
   "note": "proved for every JSON text without surrogate pair escapes, with numbers as float() computes them; both exceptions are violations by the code"
  },
  {
   "property": "C72",
   "status": "partial",
   "theorems": [
    "Parce.DocIO.C72_roundtrip_partial",
    "Parce.DocIO.C72_utf8_partial",
    "Parce.DocIO.C72_ascii_partial",
    "Parce.DocIO.C72_bom_partial",
    "Parce.DocIO.C72_utf16_violated",
    "Parce.DocIO.C72_declared_violated",
    "Parce.DocIO.C72_feff_violated",
    "Parce.DocIO.C72_cr_violated"
   ],
   "note": "proved when the data has no byte order mark, the text mentions no other encoding and has no carriage returns; the other cases are violations by the code"
  },
  {
   "property": "C73",
   "status": "partial",
   "theorems": [
    "Parce.DocIO.C73_reads",
    "Parce.DocIO.C73_stored_partial",
    "Parce.DocIO.C73_writes_partial",
    "Parce.DocIO.C73_stored_violated",
    "Parce.DocIO.C73_writes_violated",
    "Parce.DocIO.C73_hex_violated",
    "Parce.DocIO.C73_coding_violated"
   ],
   "note": "the reading priority is proved; what is stored, and what is used to write, differ from the documentation"
  },
  {
   "property": "C74",
   "status": "partial",
   "theorems": [
    "Parce.C74_replace_partial",
    "Parce.C74_replaced_unique",
    "Parce.C74_undo",
    "Parce.C74_negative_violated",
    "Parce.C74_before_violated",
    "Parce.C74_empty_violated"
   ],
   "note": "proved for non-empty old and regions with a start that is not negative, or negative with the region not reaching the end of the text; otherwise the code violates it (witnesses)"
  },
  {
   "property": "C75",
   "status": "partial",
   "theorems": [
    "Parce.C75_re_sub_partial",
    "Parce.C75_found_unique",
    "Parce.C75_undo",
    "Parce.C75_trim_partial",
    "Parce.C75_trim_inside_violated",
    "Parce.C75_negative_violated"
   ],
   "note": "proved for regions as in C74, and trim for regions that end at the end of a line; otherwise the code violates it (witnesses)"
  },
  {
   "property": "C76",
   "status": "partial",
   "theorems": [
    "Parce.C76_selection",
    "Parce.C76_has_selection_partial",
    "Parce.C76_has_selection_violated",
    "Parce.C76_select",
    "Parce.C76_lstrip",
    "Parce.C76_rstrip",
    "Parce.C76_strip",
    "Parce.C76_select_lines",
    "Parce.C76_select_lines_end",
    "Parce.C76_move"
   ],
   "note": "only has_selection is violated, for a cursor beyond the document"
  },
  {
   "property": "C77",
   "status": "proved",
   "theorems": [
    "Parce.Rx.C77_longest",
    "Parce.Rx.C77_match",
    "Parce.Rx.C77_reads",
    "Parce.Rx.C77_unambiguous"
   ],
   "note": "for non-empty lists; for the empty list see C45; case-sensitive matching"
  },
  {
   "property": "C78",
   "status": "partial",
   "theorems": [
    "Parce.C78_translate_partial",
    "Parce.C78_translated_unique",
    "Parce.C78_undo",
    "Parce.C78_nokeys_violated",
    "Parce.C78_whole_violated",
    "Parce.C78_negative_violated"
   ],
   "note": "Proved for mappings that are not empty and have no empty key, in regions that RegionOK describes (as for C74), and with whole_words if the region is not cut out of a word. Witnesses: translate({}) raises, whole_words looks at the region only, and a negative start."
  },
  {
   "property": "C79",
   "status": "partial",
   "theorems": [
    "Parce.Csv.C79_finishes",
    "Parce.Csv.C79_value_partial",
    "Parce.Csv.C79_records_partial",
    "Parce.Csv.C79_unique_partial",
    "Parce.Csv.C79_crlf_violated",
    "Parce.Csv.C79_blank_violated",
    "Parce.Csv.C79_open_violated"
   ],
   "note": "Proved for lines that end with \\n, where empty lines are left out; ending is proved for all texts. Witnesses: \\r\\n leaves \\r in the fields, an empty line is no record, a lone quote at the end raises IndexError."
  },
  {
   "property": "C80",
   "status": "partial",
   "theorems": [
    "Parce.C80_ordered",
    "Parce.C80_inside",
    "Parce.C80_covers",
    "Parce.C80_no_exception_partial",
    "Parce.C80_restartable",
    "Parce.C80_update",
    "Parce.C80_csv",
    "Parce.C80_optional_violated",
    "Parce.C80_repeated"
   ],
   "note": "Proved for all languages with such rules whose groups follow each other (C80_repeated: for groups in a repetition the order is wrong). That no exception is raised is proved if an action `using` is only for a group that takes part in every match. Witness: `using` for an optional group that took no part raises."
  },
  {
   "property": "C81",
   "status": "partial",
   "theorems": [
    "Parce.RB.C81_interrupted_partial",
    "Parce.RB.C81_without_reuse_partial",
    "Parce.RB.C81_lost_token_violated"
   ],
   "note": "Proved for all schedules, if edits that are seen while a tree is built start where at most eleven tokens of the text end before; and for all schedules without that condition for the code without treebuilder.py:277-287. With that part violated: the build continues with a part of the new tree, and its last token is deleted (treebuilder.py:285)."
  },
  {
   "property": "C82",
   "status": "proved",
   "theorems": [
    "Parce.Num.C82_words",
    "Parce.Num.C82_spelled",
    "Parce.Num.C82_writable",
    "Parce.Num.C82_finishes",
    "Parce.Num.C82_phrase",
    "Parce.Num.C82_number",
    "Parce.Num.C82_unique"
   ],
   "note": ""
  },
  {
   "property": "C83",
   "status": "partial",
   "theorems": [
    "Parce.Num.C83_texts_partial",
    "Parce.Num.C83_violated"
   ],
   "note": "Proved if after a word for tens no word follows that begins with a unit. Otherwise violated by the code: twenty seventeen gives [27]."
  },
  {
   "property": "C84",
   "status": "partial",
   "theorems": [
    "Parce.Num.C84_finishes_partial",
    "Parce.Num.C84_list_partial",
    "Parce.Num.C84_violated"
   ],
   "note": "Proved for all texts, if IGNORECASE and str.lower() agree on the letters. Violated by the code for a long s (\u017fix raises KeyError)."
  },
  {
   "property": "C85",
   "status": "partial",
   "theorems": [
    "Parce.Num.C85_dutch_partial",
    "Parce.Num.C85_german_partial",
    "Parce.Num.C85_spelled",
    "Parce.Num.C85_dutch_words",
    "Parce.Num.C85_german_words",
    "Parce.Num.C85_dutch_violated",
    "Parce.Num.C85_german_violated",
    "Parce.Num.C85_french_violated"
   ],
   "note": "Violated by the code in each of the languages (vijftig gives [5], drei\u00dfig [3], soixante-dix [60, 10]). Proved for Dutch and German for all numbers that are written without the misread words, which are exactly the tens 50, 60, 70, 90 (Dutch) and 30, 40, 50, 80, 90 (German) when they stand alone; for French there are only the witnesses."
  },
  {
   "property": "C86",
   "status": "partial",
   "theorems": [
    "Parce.Ini.C86_finishes",
    "Parce.Ini.C86_value_partial",
    "Parce.Ini.C86_text_partial",
    "Parce.Ini.C86_writable",
    "Parce.Ini.C86_comment_violated",
    "Parce.Ini.C86_colon_violated",
    "Parce.Ini.C86_key_violated",
    "Parce.Ini.C86_equals_violated",
    "Parce.Ini.C86_bracket_violated",
    "Parce.Ini.C86_letter_violated",
    "Parce.Ini.C86_name_violated",
    "Parce.Ini.C86_raises_violated"
   ],
   "note": "Violated by the code: values end at a colon, an equals sign or a bracket, escaped letters stand for themselves, names of sections that start with a backslash are unescaped, and transform_text raises IndexError for every file that ends in a comment. Proved for all other files; every string can be written as a key or value in them."
  },
  {
   "property": "C87",
   "status": "proved",
   "theorems": [
    "Parce.Cache.C87_alone",
    "Parce.Cache.C87_same",
    "Parce.Cache.C87_result",
    "Parce.Cache.C87_once",
    "Parce.Cache.C87_progress"
   ],
   "note": "The function is assumed not to use the same cache itself."
  },
  {
   "property": "C88",
   "status": "partial",
   "theorems": [
    "Parce.Cache.C88_partial",
    "Parce.Cache.C88_removes",
    "Parce.Cache.C88_progress",
    "Parce.Cache.C88_violated",
    "Parce.Cache.C88_raise_violated"
   ],
   "note": "Violated by the code: the lock is removed while other threads wait for it, so that two threads can run the function at once for the same arguments. Proved if each object is used with one tuple of arguments (as for properties) and the function raises nothing."
  },
  {
   "property": "C89",
   "status": "partial",
   "theorems": [
    "Parce.Lex.C89_access",
    "Parce.Lex.C89_apart",
    "Parce.Lex.C89_none",
    "Parce.Lex.C89_derived",
    "Parce.Lex.C89_kept",
    "Parce.Lex.C89_replaced",
    "Parce.Lex.C89_distinct",
    "Parce.Lex.C89_equal",
    "Parce.Lex.C89_argument_violated",
    "Parce.Lex.C89_hash_violated"
   ],
   "note": "Proved with Python's equality of arguments. Violated: the argument of lexicon(True) can be 1, and equal lexicons have different hashes."
  },
  {
   "property": "C90",
   "status": "proved",
   "theorems": [
    "Parce.Disp.C90_call",
    "Parce.Disp.C90_error"
   ],
   "note": ""
  },
  {
   "property": "C91",
   "status": "partial",
   "theorems": [
    "Parce.FileC.C91_partial",
    "Parce.FileC.C91_violated",
    "Parce.FileC.C91_stale"
   ],
   "note": "Proved for times other than -1, for which the code raises UnboundLocalError."
  },
  {
   "property": "C92",
   "status": "partial",
   "theorems": [
    "Parce.Sheet.C92_partial",
    "Parce.Sheet.C92_once",
    "Parce.Sheet.C92_off_partial",
    "Parce.Sheet.C92_violated",
    "Parce.Sheet.C92_circular_violated",
    "Parce.Sheet.C92_off_violated",
    "Parce.Sheet.C92_delimiter"
   ],
   "note": "Violated by the code: an import without media query raises NameError, circular imports with a media query do not end, and imports in nested blocks are followed although they are not allowed. Proved for imports with a media query that are not circular."
  },
  {
   "property": "C93",
   "status": "partial",
   "theorems": [
    "Parce.Sheet.C93_partial",
    "Parce.Sheet.C93_commute",
    "Parce.Sheet.C93_nested_violated",
    "Parce.Sheet.C93_filename_violated"
   ],
   "note": "Violated by the code for conditions in other conditions, and for the file name, which is lost."
  },
  {
   "property": "C94",
   "status": "partial",
   "theorems": [
    "Parce.CssL.C94_finishes_partial",
    "Parce.CssL.C94_value_partial",
    "Parce.CssL.C94_text_partial",
    "Parce.CssL.C94_comment_violated",
    "Parce.CssL.C94_quoted_violated",
    "Parce.CssL.C94_transparent_violated",
    "Parce.CssL.C94_slash_violated",
    "Parce.CssL.C94_column_violated",
    "Parce.CssL.C94_nested_violated"
   ],
   "note": "Violated by the code: strings in quotes raise an exception, at-rules with nested rules swallow what follows, a comment at the end raises IndexError, and `transparent`, slashes and `||` are read wrongly. Proved for all other style sheets of the grammar in Spec/CssLang.lean, which has no escapes."
  },
  {
   "property": "C95",
   "status": "partial",
   "theorems": [
    "Parce.Nd.C95_delete_partial",
    "Parce.Nd.C95_tokens",
    "Parce.Nd.C95_left_empty",
    "Parce.Nd.C95_sibling",
    "Parce.Nd.C95_violated"
   ],
   "note": "Violated by the code: the index of a context that became empty is looked up by its position, which is then 0, so another child (the first) is removed, unless the index is n/2, n/4, \u2026 of n children. Proved for exactly those cases, and that an empty context is left in all others."
  },
  {
   "property": "C96",
   "status": "partial",
   "theorems": [
    "Parce.Nd.C96_ancestors",
    "Parce.Nd.C96_ancestors_upto",
    "Parce.Nd.C96_ancestors_other_partial",
    "Parce.Nd.C96_upto_violated",
    "Parce.Nd.C96_simple",
    "Parce.Nd.C96_common_ancestor",
    "Parce.Nd.C96_siblings",
    "Parce.Nd.C96_before",
    "Parce.Nd.C96_range_partial",
    "Parce.Nd.C96_range_violated"
   ],
   "note": "Violated by the code: the range to an earlier token of the same tree is None, and a context that is no ancestor, but has a parent that is, ends the iteration of ancestors(upto). All else is proved."
  },
  {
   "property": "C97",
   "status": "proved",
   "theorems": [
    "Parce.Nd.C97_state_matches",
    "Parce.Nd.C97_equals",
    "Parce.Nd.C97_lexicons"
   ],
   "note": ""
  },
  {
   "property": "C98",
   "status": "proved",
   "theorems": [
    "Parce.Nd.C98_first_last",
    "Parce.Nd.C98_parent",
    "Parce.Nd.C98_neighbours",
    "Parce.Nd.C98_siblings",
    "Parce.Nd.C98_select",
    "Parce.Nd.C98_append"
   ],
   "note": "left, right and the siblings of the root raise an exception, as documented for the nodes; the theorem is about nodes that have a parent."
  },
  {
   "property": "C99",
   "status": "partial",
   "theorems": [
    "Parce.ToS.C99_sound",
    "Parce.ToS.C99_unique",
    "Parce.ToS.C99_complete_partial",
    "Parce.ToS.C99_escape",
    "Parce.ToS.C99_needle_partial",
    "Parce.ToS.C99_violated",
    "Parce.ToS.C99_verbose_violated"
   ],
   "note": "Violated by the code: with the VERBOSE flag a lexicon searches for a string that the pattern does not match; an escaped hyphen or blank and an unescaped closing bracket give None although there is one string. Proved without these."
  }
 ]
}