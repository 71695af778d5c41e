{
 "claims": [
  {
   "property": "C01",
   "status": "proved",
   "theorems": [
    "Zia.Props.lex_lossless",
    "Zia.Props.lex_total"
   ],
   "note": ""
  },
  {
   "property": "C02",
   "status": "proved",
   "theorems": [
    "Zia.Props.lex_canonical",
    "Zia.Props.canonical_unique"
   ],
   "note": ""
  },
  {
   "property": "C03",
   "status": "proved",
   "theorems": [
    "Zia.Props.lex_links",
    "Zia.Props.matches_unique"
   ],
   "note": ""
  },
  {
   "property": "C04",
   "status": "proved",
   "theorems": [
    "Zia.Props.nest_accepts_iff",
    "Zia.Props.nest_emptyParentheses_iff",
    "Zia.Props.nest_unmatched_iff",
    "Zia.Props.nest_emptyExpression_iff",
    "Zia.Props.nest_errors"
   ],
   "note": ""
  },
  {
   "property": "C05",
   "status": "proved",
   "theorems": [
    "Zia.Props.nest_structure",
    "Zia.Props.items_unique",
    "Zia.Props.nest_complete"
   ],
   "note": ""
  },
  {
   "property": "C11",
   "status": "partial",
   "theorems": [
    "Zia.Props.eqv_refl",
    "Zia.Props.eqv_symm",
    "Zia.Props.eqv_not_trans",
    "Zia.Props.eqv_trans_partial"
   ],
   "note": "transitivity is false of the code; refuted by eqv_not_trans, proved for trees with text"
  },
  {
   "property": "C12",
   "status": "proved",
   "theorems": [
    "Zia.Props.contains_iff_properSub",
    "Zia.Props.contains_of_sub"
   ],
   "note": ""
  },
  {
   "property": "C13",
   "status": "proved",
   "theorems": [
    "Zia.Props.vars_correct",
    "Zia.Props.isVariable_iff"
   ],
   "note": ""
  },
  {
   "property": "C14",
   "status": "proved",
   "theorems": [
    "Zia.Props.substitute_unchanged",
    "Zia.Props.substitute_replaces",
    "Zia.Props.substitute_only",
    "Zia.Props.substitute_identity",
    "Zia.Props.substitute_idempotent"
   ],
   "note": ""
  },
  {
   "property": "C15",
   "status": "proved",
   "theorems": [
    "Zia.Props.merge_succeeds_iff",
    "Zia.Props.merge_result",
    "Zia.Props.merge_comm",
    "Zia.Props.merge_conflates"
   ],
   "note": "'same expression' means same text and concept, as in the code; merge_conflates shows that this conflates compound expressions without text"
  },
  {
   "property": "C16",
   "status": "partial",
   "theorems": [
    "Zia.Props.match_sound",
    "Zia.Props.match_complete",
    "Zia.Props.match_self",
    "Zia.Props.match_instance_partial",
    "Zia.Props.match_not_instance"
   ],
   "note": "soundness and completeness of matching place by place; literal instance only when text and concept tell the parts of the example apart, refuted otherwise"
  },
  {
   "property": "C17",
   "status": "proved",
   "theorems": [
    "Zia.Props.push_iff",
    "Zia.Props.pushed_distinct",
    "Zia.Props.get_innermost",
    "Zia.Props.pushed_bounded"
   ],
   "note": ""
  },
  {
   "property": "C41",
   "status": "partial",
   "theorems": [
    "Zia.Props.substitute_stale_vars",
    "Zia.Props.substitute_vars_partial"
   ],
   "note": "false of the code, refuted by witness; holds when no proper subexpression is replaced"
  },
  {
   "property": "C42",
   "status": "partial",
   "theorems": [
    "Zia.Props.hash_incoherent",
    "Zia.Props.alike_hash_partial"
   ],
   "note": "false of the code, refuted by witness; holds for trees alike in text and concept"
  },
  {
   "property": "C18",
   "status": "partial",
   "theorems": [
    "Zia.Props.reduction_listed",
    "Zia.Props.reductions_two_way_partial",
    "Zia.Props.reductions_not_two_way"
   ],
   "note": "the stored reduction is always listed by its target; the converse holds for histories that only reduce concepts without a reduction, and is refuted in general by a reachable state"
  },
  {
   "property": "C19",
   "status": "partial",
   "theorems": [
    "Zia.Props.composition_links_two_way_partial",
    "Zia.Props.back_link_composed_partial",
    "Zia.Props.composition_links_not_two_way"
   ],
   "note": "holds for histories without redefinitions; refuted in general by a reachable state"
  },
  {
   "property": "C20",
   "status": "partial",
   "theorems": [
    "Zia.Props.one_concept_per_pair_partial",
    "Zia.Props.pair_composed_twice"
   ],
   "note": "holds for histories without redefinitions; refuted in general by a reachable state"
  },
  {
   "property": "C21",
   "status": "partial",
   "theorems": [
    "Zia.Props.reductions_acyclic_partial",
    "Zia.Props.normalForm_terminates_partial",
    "Zia.Props.normalForm_diverges",
    "Zia.Props.reductions_loop"
   ],
   "note": "holds for histories that only reduce concepts without a reduction; refuted in general by a reachable state where the normal form diverges"
  },
  {
   "property": "C22",
   "status": "proved",
   "theorems": [
    "Zia.Props.parts_acyclic",
    "Zia.Props.contains_terminates"
   ],
   "note": ""
  },
  {
   "property": "C23",
   "status": "proved",
   "theorems": [
    "Zia.Props.builtin_found",
    "Zia.Props.builtin_permanent"
   ],
   "note": ""
  },
  {
   "property": "C24",
   "status": "proved",
   "theorems": [
    "Zia.Props.references_valid"
   ],
   "note": ""
  },
  {
   "property": "C25",
   "status": "proved",
   "theorems": [
    "Zia.Props.new_concept_fresh",
    "Zia.Props.inserted_concept_fresh",
    "Zia.Props.made_ids_distinct"
   ],
   "note": ""
  },
  {
   "property": "C26",
   "status": "proved",
   "theorems": [
    "Zia.Props.concept_through_layers",
    "Zia.Props.string_through_layers",
    "Zia.Props.string_start_through_layers",
    "Zia.Props.string_start_lost",
    "Zia.Props.order_through_layers",
    "Zia.Props.all_concepts_through_layers",
    "Zia.Props.all_strings_through_layers"
   ],
   "note": "what a string ends as is right in all layers; what it was before is lost when a layer removes it (string_start_lost)"
  },
  {
   "property": "C27",
   "status": "proved",
   "theorems": [
    "Zia.Props.reads_what_is_stored"
   ],
   "note": "reduction, parts, text and built-in type of every concept the command can read"
  },
  {
   "property": "C28",
   "status": "partial",
   "theorems": [
    "Zia.Props.commits_iff_changes_fit",
    "Zia.Props.introductions_commit_partial",
    "Zia.Props.answered_commits_partial",
    "Zia.Props.commit_crashes",
    "Zia.Props.equal_pair_crashes"
   ],
   "note": "false of the code, refuted by witnesses; exact condition for a commit to succeed, and the commands that always meet it"
  },
  {
   "property": "C06",
   "status": "partial",
   "theorems": [
    "Zia.Props.leaves_kept_partial",
    "Zia.Props.leaves_lost"
   ],
   "note": "holds for every run that meets no left associative symbols; refuted in general by a reachable context in which `a + b` is read as `a`"
  },
  {
   "property": "C07",
   "status": "proved",
   "theorems": [
    "Zia.Props.groups_to_the_right"
   ],
   "note": ""
  },
  {
   "property": "C08",
   "status": "proved",
   "theorems": [
    "Zia.Props.read_by_precedence",
    "Zia.Props.cut_at_found_lowest",
    "Zia.Props.occurrences_cut_alike"
   ],
   "note": "for runs in which the answers about precedences agree with some ranking of the symbols and no symbol of lowest precedence is left associative (C09: left associative symbols are read wrongly); cut_at_found_lowest needs no ranking"
  },
  {
   "property": "C09",
   "status": "partial",
   "theorems": [
    "Zia.Props.left_drops_the_rest",
    "Zia.Props.left_crashes"
   ],
   "note": "false of the code: for every list with left associative symbols of lowest precedence the parser fails or drops the symbol and what follows; a reachable crash"
  },
  {
   "property": "C10",
   "status": "proved",
   "theorems": [
    "Zia.Props.parsing_ends",
    "Zia.Props.parsing_bound"
   ],
   "note": ""
  },
  {
   "property": "C32",
   "status": "proved",
   "theorems": [
    "Zia.Props.comparison_answer",
    "Zia.Props.comparison_mirror",
    "Zia.Props.comparisons_mirrored",
    "Zia.Props.comparison_reduction",
    "Zia.Props.comparison_crash"
   ],
   "note": ""
  },
  {
   "property": "C33",
   "status": "proved",
   "theorems": [
    "Zia.Props.truth_of_reduction",
    "Zia.Props.mutual_reduction_crashes",
    "Zia.Props.reduction_answer"
   ],
   "note": ""
  },
  {
   "property": "C34",
   "status": "partial",
   "theorems": [
    "Zia.Props.normal_forms_irreducible",
    "Zia.Props.normal_forms_found",
    "Zia.Props.second_run_partial"
   ],
   "note": "the second run is shown to change nothing for results without variables only"
  },
  {
   "property": "C35",
   "status": "proved",
   "theorems": [
    "Zia.Props.match_is_instance",
    "Zia.Props.instances_match"
   ],
   "note": ""
  },
  {
   "property": "C43",
   "status": "proved",
   "theorems": [
    "Zia.Props.outcome_stable",
    "Zia.Props.answers_determined",
    "Zia.Props.new_determined"
   ],
   "note": ""
  },
  {
   "property": "C44",
   "status": "partial",
   "theorems": [
    "Zia.Props.answers_depend_on_order",
    "Zia.Props.candidates_any_order_partial",
    "Zia.Props.words_session_any_order_partial"
   ],
   "note": "false of the code, refuted by a reachable context in which `p q` has two answers; the candidates for a rule are the same for every order, and so are the answers of sessions about words"
  },
  {
   "property": "C37",
   "status": "proved",
   "theorems": [
    "Zia.Props.names_forgotten",
    "Zia.Props.no_names_before"
   ],
   "note": ""
  },
  {
   "property": "C38",
   "status": "proved",
   "theorems": [
    "Zia.Props.variables_bound",
    "Zia.Props.same_name_same_variable"
   ],
   "note": ""
  },
  {
   "property": "C30",
   "status": "partial",
   "theorems": [
    "Zia.Props.cache_changes_answer",
    "Zia.Props.cache_crashes",
    "Zia.Props.repeated_reduction_partial",
    "Zia.Props.words_session_no_trace_partial",
    "Zia.Props.words_session_cleared_partial"
   ],
   "note": "false of the code: a query changes the answer to another query in the same state, and results kept over a commit make a later command crash; a reduction just computed is found again, and questions in sessions about words change no other answer, and emptying the cache between their commands changes none"
  },
  {
   "property": "C31",
   "status": "partial",
   "theorems": [
    "Zia.Props.clones_keep_store_partial",
    "Zia.Props.clones_reachable",
    "Zia.Props.clone_changes_answer",
    "Zia.Props.words_clones_partial"
   ],
   "note": "what the original stores is never changed by its clones; its answers are, through the cache they share, shown by a witness; questions about words are answered alike by a context and its clones however they are mixed"
  },
  {
   "property": "C39",
   "status": "partial",
   "theorems": [
    "Zia.Props.rejected_changes_store",
    "Zia.Props.rejected_by_grouping_partial",
    "Zia.Props.rejected_early_partial",
    "Zia.Props.words_session_no_trace_partial"
   ],
   "note": "false of the code, refuted by a witness; holds for commands rejected because of their parentheses; for errors found before the change begins nothing but names is added; in sessions about words a rejected command changes no other answer"
  },
  {
   "property": "C40",
   "status": "partial",
   "theorems": [
    "Zia.Props.not_every_command_answered",
    "Zia.Props.grouping_answered_partial"
   ],
   "note": "false of the code, refuted by a command that crashes a new context with any bound on its run"
  },
  {
   "property": "C36",
   "status": "partial",
   "theorems": [
    "Zia.Props.answer_not_read_back",
    "Zia.Props.text_read_back_partial",
    "Zia.Props.joint_text",
    "Zia.Props.joined_read_back_partial"
   ],
   "note": "false of the code: parentheses two levels deep are dropped, shown by a witness; the trees whose text reads back are characterised, for parts that associate to the right"
  },
  {
   "property": "C29",
   "status": "partial",
   "theorems": [
    "Zia.Props.introduced_symbol",
    "Zia.Props.lookup_named_partial",
    "Zia.Props.symbols_distinct_partial",
    "Zia.Props.displayed_named_partial",
    "Zia.Props.renamed_partial",
    "Zia.Props.displayed_symbol_shared"
   ],
   "note": "introducing a symbol in full; lookups and renaming for histories that replace no reduction or definition; the converse (a displayed symbol stands for the concept) is refuted by a reachable witness"
  },
  {
   "property": "C45",
   "status": "proved",
   "theorems": [
    "Zia.Props.string_table_exact"
   ],
   "note": ""
  },
  {
   "property": "C46",
   "status": "proved",
   "theorems": [
    "Zia.Props.page_conversation",
    "Zia.Props.page_submit"
   ],
   "note": ""
  },
  {
   "property": "C47",
   "status": "partial",
   "theorems": [
    "Zia.Props.page_crash_partial",
    "Zia.Props.page_crash_last",
    "Zia.Props.page_crashes"
   ],
   "note": "false of the code: in each tutorial, a command answered with nothing at the last step crashes the page; every other crash is a fault of the interpreter"
  },
  {
   "property": "C48",
   "status": "proved",
   "theorems": [
    "Zia.Props.page_text"
   ],
   "note": ""
  },
  {
   "property": "C49",
   "status": "partial",
   "theorems": [
    "Zia.Props.empty_session_partial",
    "Zia.Props.empty_session_tutorial",
    "Zia.Props.empty_session_false"
   ],
   "note": "false of the code: the active tutorial and the typed text are kept; context, conversation and menu are reset"
  },
  {
   "property": "C50",
   "status": "proved",
   "theorems": [
    "Zia.Props.tutorial_followed",
    "Zia.Props.tutorial_proceeds",
    "Zia.Props.tutorial_completed"
   ],
   "note": ""
  },
  {
   "property": "C51",
   "status": "proved",
   "theorems": [
    "Zia.Props.shell_prints"
   ],
   "note": ""
  },
  {
   "property": "C52",
   "status": "proved",
   "theorems": [
    "Zia.Props.names_do_not_matter",
    "Zia.Props.session_renamed",
    "Zia.Props.session_renamed_clear",
    "Zia.Props.command_renamed",
    "Zia.Props.new_renamed",
    "Zia.Props.names_exist",
    "Zia.Props.chain_any_names",
    "Zia.Props.syllogism_any_names"
   ],
   "note": "both sessions are assumed to be answered, or lookups of symbols not to fault; x, y and z count as words of the program"
  },
  {
   "property": "C53",
   "status": "proved",
   "theorems": [
    "Zia.Props.answered_teaches_nothing",
    "Zia.Props.teaching_is_not_answered"
   ],
   "note": "the messages of the errors found late are excluded, they may follow a part of the change"
  },
  {
   "property": "C54",
   "status": "partial",
   "theorems": [
    "Zia.Props.taught_reduces_partial",
    "Zia.Props.taught_new"
   ],
   "note": "missing: words defined as compositions, histories that replace reductions or change definitions, two known words while the cache is not empty, a stored concept `-> y`, the word label_of, and the command without brackets (covered in sessions about words by C58)"
  },
  {
   "property": "C55",
   "status": "partial",
   "theorems": [
    "Zia.Props.forget_forgets_partial",
    "Zia.Props.forgetting_undoes"
   ],
   "note": "missing: words defined as compositions, histories that replace reductions or change definitions, and a cache with another tree for one of the two words"
  },
  {
   "property": "C56",
   "status": "partial",
   "theorems": [
    "Zia.Props.words_answered_partial"
   ],
   "note": "missing: words in compositions or reducing to such, stores with a rule that concludes the reduction of anything, histories that replace reductions or change definitions, and a cache that is not empty at the start"
  },
  {
   "property": "C57",
   "status": "partial",
   "theorems": [
    "Zia.Props.taught_answered_partial"
   ],
   "note": "missing: what is missing for C54 and C56, and a known word x that already reduces to something"
  },
  {
   "property": "C58",
   "status": "proved",
   "theorems": [
    "Zia.Props.words_session",
    "Zia.Props.words_session_answers",
    "Zia.Props.words_session_spelt"
   ],
   "note": ""
  },
  {
   "property": "C59",
   "status": "partial",
   "theorems": [
    "Zia.Props.wonder_answered_wrongly",
    "Zia.Props.wonder_answered_partial"
   ],
   "note": "false of the code: both sides of the question are reduced at the same time, so a -> b is answered true if a reduces to p, p to q and b to q. Proved: the answer to x (-> y) or x -> y is true if x leads to y, and right if y does not reduce; the exact answer in every session is part of words_session"
  },
  {
   "property": "C60",
   "status": "partial",
   "theorems": [
    "Zia.Props.rule_accepted_partial",
    "Zia.Props.definition_accepted_partial",
    "Zia.Props.forget_accepted_partial",
    "Zia.Props.assertion_accepted_partial"
   ],
   "note": "missing: pairs whose text is a name, renames, changed parts of a pair, commands that are themselves stored concepts"
  },
  {
   "property": "C61",
   "status": "proved",
   "theorems": [
    "Zia.Props.builtin_remembered",
    "Zia.Props.builtin_tree"
   ],
   "note": ""
  },
  {
   "property": "C63",
   "status": "partial",
   "theorems": [
    "Zia.Props.repeated_question_crashes",
    "Zia.Props.repeated_question_partial"
   ],
   "note": "refuted in general; missing: other sessions than those about words, and that the question is answered the second time"
  },
  {
   "property": "C64",
   "status": "proved",
   "theorems": [
    "Zia.Props.told_in_any_order"
   ],
   "note": "for sessions that are answered"
  },
  {
   "property": "C65",
   "status": "proved",
   "theorems": [
    "Zia.Props.forgetting_undoes_telling"
   ],
   "note": "for sessions that are answered"
  },
  {
   "property": "C66",
   "status": "proved",
   "theorems": [
    "Zia.Props.spacing_ignored",
    "Zia.Props.spacing_ignored_session",
    "Zia.Props.outer_spaces_ignored",
    "Zia.Props.inner_spaces_ignored",
    "Zia.Props.bracket_spaces_ignored"
   ],
   "note": ""
  },
  {
   "property": "C67",
   "status": "proved",
   "theorems": [
    "Zia.Props.redundant_brackets_ignored",
    "Zia.Props.outer_brackets_matter"
   ],
   "note": ""
  },
  {
   "property": "C68",
   "status": "proved",
   "theorems": [
    "Zia.Props.unrelated_words"
   ],
   "note": ""
  },
  {
   "property": "C62",
   "status": "proved",
   "theorems": [
    "Zia.Props.concepts_last",
    "Zia.Props.store_grows",
    "Zia.Props.texts_last",
    "Zia.Props.session_lasts"
   ],
   "note": ""
  }
 ]
}