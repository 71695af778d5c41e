{"id": "C01", "title": "Lexing loses nothing", "statement": "Concatenating the text of the lexemes returned by `Context::lex` gives back the command exactly, and no lexeme is empty.", "quantifier": "every command string and every context state", "why_tests_cant": "The claim is about every unicode string; a test fixes a handful of commands.", "anchors": ["zia/src/context.rs: Context::lex", "zia/src/lexer.rs: Lexeme"]}
{"id": "C02", "title": "Lexemes are maximal runs and are classified by their whole text", "statement": "Each lexeme is exactly one parenthesis, a maximal run of whitespace or a maximal run of other characters; a symbol lexeme is a variable exactly when its whole text begins and ends with `_`, otherwise known/new according to a lookup of its whole text. There is only one such segmentation, so the lexeme list is determined by the command.", "quantifier": "every command string and every label table", "why_tests_cant": "Maximality and uniqueness range over all splits of all strings.", "anchors": ["zia/src/context.rs: Context::lex, Context::concept_kind_from_symbol"]}
{"id": "C03", "title": "Parenthesis links are mutual and well nested", "statement": "In the lexeme list, an opening parenthesis at i names closing position j iff the closing parenthesis at j names opening position i; linked pairs enclose a balanced stretch, i<j, and a parenthesis without a link really has no partner.", "quantifier": "every command string, balanced or not, and every pair of positions", "why_tests_cant": "Nesting depth and imbalance are unbounded.", "anchors": ["zia/src/context.rs: Context::lex", "zia/src/lexer.rs: Category"]}
{"id": "C04", "title": "Grouping accepts exactly the well-formed commands and reports the right error", "statement": "A command is grouped successfully iff its parentheses balance, no group is empty and there is at least one symbol. Otherwise the error is the one belonging to the first offending position: EmptyParentheses, UnmatchedParentheses or EmptyExpression. Grouping never panics.", "quantifier": "every command string", "why_tests_cant": "The grammar is recursive, so the accepted and rejected sets are both infinite.", "anchors": ["zia/src/context.rs: Context::nest", "zia/src/errors.rs: ZiaError"]}
{"id": "C05", "title": "Grouping keeps the symbols and the brackets the user wrote", "statement": "The symbols of the grouped tree, read left to right, are the symbols of the command in order; every group the user wrote in parentheses is one subtree holding exactly the symbols between those parentheses.", "quantifier": "every well-formed command", "why_tests_cant": "Ranges over trees of any depth and width.", "anchors": ["zia/src/context.rs: Context::nest", "zia/src/nester.rs: NestedSyntaxTree::append_node, NestedSyntaxTree::nest"]}
{"id": "C06", "title": "Parsing keeps every symbol, in order", "statement": "When a list of grouped expressions is parsed to a binary tree, the leaves of the tree are the given expressions, once each, in the order written, whatever precedence and associativity are in force.", "quantifier": "every expression list, every assignment of precedence and associativity to the symbols", "why_tests_cant": "The tree depends on user-defined precedence relations; no finite list of grammars covers it.", "anchors": ["zia/src/context.rs: ast_from_syntax_list, associativity_try_fold_handler, lowest_precedence_info", "zia/src/associativity.rs: Associativity::slice_tokens"]}
{"id": "C07", "title": "Expressions group to the right by default", "statement": "With no precedence or left associativity declared, `t1 t2 ... tn` is read as `t1 (t2 (... tn))`.", "quantifier": "every non-empty list of symbols of any length", "why_tests_cant": "Unbounded length.", "anchors": ["zia/src/context.rs: ast_from_syntax_list, associativity_try_fold_handler"]}
{"id": "C08", "title": "Lower precedence operators bind looser", "statement": "If the lowest-precedence symbols of an expression are right associative, the tree is split exactly at those symbols: no lowest-precedence symbol ends up below a symbol of a higher precedence unless the user bracketed it.", "quantifier": "every expression and every set of positions holding lowest-precedence symbols", "why_tests_cant": "Depends on arbitrary sets of positions in lists of arbitrary length.", "anchors": ["zia/src/context.rs: ast_from_syntax_list, lowest_precedence_info"]}
{"id": "C09", "title": "Left associative operators group to the left", "statement": "With symbols declared left associative, `a op b op c` is read as `((a op) b op) c`-style left grouping of the same leaves rather than an error or a crash.", "quantifier": "every expression whose lowest-precedence symbols are left associative", "why_tests_cant": "Depends on the iteration order of a heap for every number of operators.", "anchors": ["zia/src/context.rs: ast_from_syntax_list (Left branch), associativity_try_fold_handler", "zia/src/associativity.rs: slice_tokens"]}
{"id": "C10", "title": "Parsing always ends", "statement": "Parsing a list of n expressions into a tree recurses only on strictly shorter lists, so it ends after boundedly many steps.", "quantifier": "every expression list, every precedence and associativity assignment", "why_tests_cant": "Termination for every input.", "anchors": ["zia/src/context.rs: ast_from_syntax_list, associativity_try_fold_handler"]}
{"id": "C11", "title": "Syntax tree comparison is an equivalence", "statement": "Equality of syntax trees is reflexive, symmetric and transitive.", "quantifier": "all triples of syntax trees, with or without text and with or without concepts", "why_tests_cant": "Laws over all triples.", "anchors": ["zia/src/ast/macro.rs: impl PartialEq for GenericSyntaxTree", "zia/src/ast/node.rs: impl PartialEq for Node"]}
{"id": "C12", "title": "Containment means a proper subexpression", "statement": "`contains` answers true exactly when some proper subexpression has the same text and concept as the other tree; it is transitive along subexpressions.", "quantifier": "all pairs of syntax trees", "why_tests_cant": "Trees of unbounded depth.", "anchors": ["zia/src/ast/macro.rs: GenericSyntaxTree::contains"]}
{"id": "C13", "title": "Free and binding variables of an expression are computed correctly", "statement": "The variable sets stored in a composed tree are exactly those given by the scoping rule: a variable directly applied to the quantifier binds; binding on the left of an application captures that variable on the right; all other variable leaves are free.", "quantifier": "all trees built by pairing", "why_tests_cant": "Recursive scoping over unbounded trees.", "anchors": ["zia/src/ast/node.rs: Node::new_pair", "zia/src/ast/macro.rs: is_variable"]}
{"id": "C14", "title": "Substitution replaces exactly the occurrences", "statement": "Substituting changes nothing when no subexpression is in the substitution's domain, replaces each outermost occurrence by its value, keeps the shape elsewhere, and substituting by the identity is the identity.", "quantifier": "all trees and all substitutions", "why_tests_cant": "Structural induction over unbounded trees.", "anchors": ["zia/src/substitute.rs: substitute"]}
{"id": "C15", "title": "Merging substitutions succeeds iff they agree", "statement": "Merging two maps succeeds iff every shared variable is given the same expression; the result then extends both, has no other entries, and the outcome does not depend on the order of the two maps.", "quantifier": "all pairs of maps of any size", "why_tests_cant": "Unbounded maps, and the code swaps operands by size.", "anchors": ["zia/src/consistent_merge.rs: consistent_merge", "zia/src/ast/trait.rs: ExampleSubstitutions"]}
{"id": "C16", "title": "A matched example really is an instance of the pattern", "statement": "When matching an example against a pattern returns substitutions, applying them to the pattern and to the example yields expressions that agree at every leaf; matching an expression with itself always succeeds.", "quantifier": "all pairs of trees", "why_tests_cant": "Soundness over unbounded trees and repeated variables.", "anchors": ["zia/src/ast/macro.rs: GenericSyntaxTree::check_example"]}
{"id": "C17", "title": "Rule application cannot loop through the same variable assignment", "statement": "A variable assignment is pushed only when it differs from every assignment already on the stack, lookups see the innermost binding, and a stack built by pushes never holds two equal assignments.", "quantifier": "all stacks of assignments and all pushes", "why_tests_cant": "Histories of pushes of any length.", "anchors": ["zia/src/variable_mask_list.rs: VariableMaskList::push, get, contains"]}
{"id": "C18", "title": "Reduction links are two-way", "statement": "In the stored context, concept a lists b as its reduction iff b lists a among the concepts that reduce to it.", "quantifier": "every context reachable by any sequence of commands", "why_tests_cant": "Quantifies over histories.", "anchors": ["zia/src/concepts/mod.rs: Concept::make_reduce_to, make_no_longer_reduce_to, change_reduction", "zia/src/context_snap_shot/mod.rs: apply", "zia/src/context_updater.rs: update_reduction, delete_reduction"]}
{"id": "C19", "title": "Composition links are two-way", "statement": "In the stored context, c is composed of l and r iff l records c as its composition with r on the right and r records c as its composition with l on the left.", "quantifier": "every context reachable by any sequence of commands", "why_tests_cant": "Quantifies over histories.", "anchors": ["zia/src/concepts/mod.rs: composition_of, lefthand_of, righthand_of, double, change_composition", "zia/src/context_snap_shot/mod.rs: apply"]}
{"id": "C20", "title": "One concept per pair", "statement": "No two distinct concepts are composed of the same ordered pair of concepts.", "quantifier": "every context reachable by any sequence of commands", "why_tests_cant": "Quantifies over histories.", "anchors": ["zia/src/context_updater.rs: find_or_insert_composition, insert_composition", "zia/src/context_search.rs: combine"]}
{"id": "C21", "title": "Chains of reductions never loop", "statement": "Following the reduction of a concept repeatedly always ends, so asking for a normal form terminates.", "quantifier": "every concept of every context reachable by any sequence of commands", "why_tests_cant": "Quantifies over histories; one missed guard makes every later query overflow the stack.", "anchors": ["zia/src/context_updater.rs: update_reduction", "zia/src/snap_shot.rs: get_normal_form", "zia/src/context.rs: execute_reduction"]}
{"id": "C22", "title": "No concept is part of itself", "statement": "Following the composition of a concept down through its parts never comes back to it, so containment queries terminate.", "quantifier": "every concept of every context reachable by any sequence of commands", "why_tests_cant": "Quantifies over histories.", "anchors": ["zia/src/context_updater.rs: insert_composition", "zia/src/snap_shot.rs: contains, check_reductions", "zia/src/context.rs: execute_composition"]}
{"id": "C23", "title": "Built-in concepts are permanent and irreducible", "statement": "The fourteen built-in concepts keep their identity for the life of the context; no command can give a built-in concept a definition or a reduction rule, or remove it.", "quantifier": "every context reachable by any sequence of commands", "why_tests_cant": "Quantifies over histories.", "anchors": ["zia/src/concepts/mod.rs: make_reduce_to, composition_of, compose_delta", "zia/src/context_snap_shot/mod.rs: apply, concrete_concept_id", "zia/src/context.rs: label_concrete_concepts"]}
{"id": "C24", "title": "Stored references never dangle", "statement": "Every concept id stored in a committed concept, in the string table or in the built-in table names a concept that exists, and a concept stored under an id carries that id.", "quantifier": "every context reachable by any sequence of commands", "why_tests_cant": "Quantifies over histories.", "anchors": ["zia/src/context_snap_shot/mod.rs: apply, apply_new_concept, convert_to_committed_concept_id"]}
{"id": "C25", "title": "New concepts get fresh ids", "statement": "Every concept created during a command, also inside a spawned change set, gets an id that no live concept of that change set or of its parents has.", "quantifier": "all change sets reached by any sequence of insertions and spawns", "why_tests_cant": "Histories of operations.", "anchors": ["zia/src/context_delta.rs: insert_delta_for_new_concept, NestedDelta::spawn"]}
{"id": "C26", "title": "A nested change set reads like its layers applied in order", "statement": "Reading a concept's changes, a string's state or the order of application through nested change sets gives the same as flattening inner layers before outer layers.", "quantifier": "all nestings and all layers", "why_tests_cant": "Unbounded nesting.", "anchors": ["zia/src/context_delta.rs: NestedDelta::get_concept, get_string, iter_string, iter_concepts, concepts_to_apply_in_order"]}
{"id": "C27", "title": "What a command sees before commit is what is stored after commit", "statement": "Reading a concept through the pending changes gives the same reduction, composition, string and built-in type as reading the committed concept after the changes are applied.", "quantifier": "all stored contexts and all pending change sets that commit without a crash", "why_tests_cant": "Relates two independent implementations on every change history.", "anchors": ["zia/src/snap_shot.rs: maybe_read_concept, read_concept", "zia/src/context_snap_shot/mod.rs: apply", "zia/src/context_snap_shot/concept.rs: Mixed"]}
{"id": "C28", "title": "Committing never crashes", "statement": "Applying the pending changes of any command succeeds.", "quantifier": "every command in every reachable context", "why_tests_cant": "One crashing command suffices; tests only sample commands.", "anchors": ["zia/src/context_snap_shot/mod.rs: apply, commit_new_concept_with_dependent_concepts"]}
{"id": "C29", "title": "Labels resolve to the concept they were given to", "statement": "After a symbol is introduced or a concept renamed, looking the symbol up returns that concept and displaying the concept prints that symbol.", "quantifier": "every symbol and every stored context satisfying the label table discipline", "why_tests_cant": "All symbols and contexts.", "anchors": ["zia/src/context_updater.rs: new_labelled_concept, label, relabel, unlabel", "zia/src/context_snap_shot/mod.rs: concept_from_label, get_labellee, get_label"]}
{"id": "C30", "title": "Caching never changes an answer within one state", "statement": "A cached lookup returns what recomputation would return as long as the context has not changed; every change to the context empties the cache.", "quantifier": "all cache contents filled by earlier lookups and all change sequences", "why_tests_cant": "Histories of lookups and changes.", "anchors": ["zia/src/context_cache/macro.rs: GenericCache", "zia/src/context_delta.rs: update_concept_delta"]}
{"id": "C31", "title": "A cloned context is independent", "statement": "Commands executed on a clone never change what the original stores.", "quantifier": "all contexts and all command sequences on the clone", "why_tests_cant": "All histories.", "anchors": ["zia/src/context.rs: impl Clone for Context", "zia/src/context_cache/macro.rs: GenericCache"]}
{"id": "C32", "title": "Comparison is coherent in both directions", "statement": "Comparing x with y and y with x give mirror-image answers; comparing an expression with itself gives equality; `x > y` reduces to true only if it is strictly greater and to false only if it is equal, less or less-or-equal.", "quantifier": "all pairs of expressions and all truth assignments to `x > y` and `y > x`", "why_tests_cant": "All combinations including unknown ones.", "anchors": ["zia/src/context_search.rs: compare, reduce_by_expanded_right_branch"]}
{"id": "C33", "title": "`a -> b` is true iff a reduces to b in one or more steps", "statement": "The truth of a reduction is true iff repeated reduction of the left reaches the right, false if they are the same expression or repeated reduction of the right reaches the left, and undetermined otherwise.", "quantifier": "all pairs of expressions and all one-step reducers", "why_tests_cant": "Chains of any length.", "anchors": ["zia/src/reduction_reason.rs: determine_evidence_of_reduction, determine_reduction_truth"]}
{"id": "C34", "title": "Normal forms are irreducible", "statement": "When repeated reduction ends, its result cannot be reduced further, every intermediate expression is a single step from the previous one, and a second run changes nothing.", "quantifier": "all expressions and all one-step reducers", "why_tests_cant": "Chains of any length.", "anchors": ["zia/src/context_search.rs: recursively_reduce"]}
{"id": "C35", "title": "A generalisation match is an instance", "statement": "When an expression matches a stored rule pattern, putting the matched expressions in place of the pattern's variables rebuilds the expression, with each variable standing for one expression only.", "quantifier": "all expressions, all stored patterns in all contexts", "why_tests_cant": "Unbounded patterns, repeated variables.", "anchors": ["zia/src/context_search.rs: check_generalisation"]}
{"id": "C36", "title": "Printing an expression and reading it back gives the same tree", "statement": "Displaying a tree adds exactly the parentheses needed so that reading the text again (with the same associativity) gives the same tree.", "quantifier": "all binary trees of symbols", "why_tests_cant": "Unbounded trees.", "anchors": ["zia/src/context_search.rs: display_joint", "zia/src/associativity.rs: display_joint_left, display_joint_right", "zia/src/context.rs: lex, nest, ast_from_syntax_list"]}
{"id": "C37", "title": "Variable names do not leak between commands", "statement": "After a command completes, the tables of variable names and bound variables are empty, so the meaning of a variable in one command is independent of the variables of the previous command.", "quantifier": "all contexts and commands, whether they succeed or fail", "why_tests_cant": "All histories.", "anchors": ["zia/src/context.rs: execute, create_variable_concepts"]}
{"id": "C38", "title": "The same variable name means the same variable within one command", "statement": "Within one command all leaves spelled with the same variable name are bound to one concept and leaves with different names to different concepts.", "quantifier": "all expressions", "why_tests_cant": "Unbounded trees and numbers of variables.", "anchors": ["zia/src/context.rs: create_variable_concepts"]}
{"id": "C39", "title": "A rejected command changes nothing", "statement": "A command that answers with an error leaves the stored context as it was.", "quantifier": "all contexts and all commands that answer with an error", "why_tests_cant": "All histories; many error paths.", "anchors": ["zia/src/context.rs: execute, execute_without_closing_scope"]}
{"id": "C40", "title": "Every command is answered", "statement": "`execute` returns a string for every command: it neither crashes nor runs forever.", "quantifier": "every command in every reachable context", "why_tests_cant": "All histories and inputs.", "anchors": ["zia/src/context.rs: execute", "zia/src/context_search.rs: recursively_reduce"]}
{"id": "C41", "title": "Substitution keeps the variable sets right", "statement": "After substituting in an expression, the expression is still classified as containing variables exactly when one of its leaves is a variable.", "quantifier": "all expressions and all substitutions", "why_tests_cant": "The set stored in a branch depends on every leaf below it; a test sees one tree and one substitution.", "anchors": ["zia/src/substitute.rs substitute", "zia/src/ast/node.rs new_pair", "zia/src/ast/macro.rs is_variable"]}
{"id": "C42", "title": "Equal expressions hash equally", "statement": "Two expressions that compare equal feed the same data to the hasher, so that maps and sets keyed by expressions find them.", "quantifier": "all pairs of expressions", "why_tests_cant": "A pair of expressions that compare equal but hash differently is lost only with some probability in a given map; tests of a few keys pass.", "anchors": ["zia/src/ast/macro.rs PartialEq::eq", "zia/src/ast/macro.rs Hash::hash"]}
{"id": "C43", "title": "Answers are determined by the commands", "statement": "Two runs of the same command on the same context, with any amounts of stack that let both end, give the same answer and the same context; so do two runs of a list of commands.", "quantifier": "every context, every list of commands, every pair of bounds on the recursion", "why_tests_cant": "All inputs and all bounds at once.", "anchors": ["zia/src/context.rs: execute", "zia/src/context_search.rs: ContextSearch"]}
{"id": "C44", "title": "Answers do not depend on the order of hash tables", "statement": "The answer to a command is the same whatever order the hash tables of the program are visited in.", "quantifier": "all reachable contexts, all commands and all orders of visiting hash tables", "why_tests_cant": "The order is chosen at random for each run; a test sees one of them.", "anchors": ["zia/src/context_search.rs find_generalisations, find_examples_of_inferred_reduction, generalisation_candidates", "zia/src/mixed_concept.rs iter_hand_of, find_what_reduces_to_it"]}
{"id": "C45", "title": "The table of strings is exact", "statement": "After every history of commands a text is found in the table of strings exactly if the store holds a string with that text, and what the table gives is such a string. So a symbol is never looked up through a concept that is something else, and no stored string is lost.", "quantifier": "every reachable context and every text", "why_tests_cant": "Every history of commands: introductions, renamings and forgetting interleave, and each changes the table in a different step of the commit.", "anchors": ["zia/src/context_snap_shot/mod.rs: apply, get_string_concept, string_map", "zia/src/context_delta.rs: update_new_concept_delta"]}
{"id": "C46", "title": "The conversation on the page is the session", "statement": "Whatever a visitor of the web page does, the conversation shown consists of commands and the answers a new context gives to these commands in this order, and further commands are run in the context after the last of them. Entering the typed text adds it and its answer and nothing else.", "quantifier": "every sequence of clicks, typed texts, changes of address and frames", "why_tests_cant": "a test drives a few sequences; messages, scheduled inputs and resets can interleave in any order", "anchors": ["zia-lang.org/crate/src/page/home/mod.rs: update, Model::reset", "zia-lang.org/crate/src/lib.rs: update, view"]}
{"id": "C47", "title": "The page does not crash by itself", "statement": "No click, typed text or frame offered to a visitor makes the web page crash unless the interpreter itself faults.", "quantifier": "every reachable state of the page and every event it offers", "why_tests_cant": "the crash needs a tutorial state and an answer that the tutorial tests never combine", "anchors": ["zia-lang.org/crate/src/page/home/command_input.rs: view", "zia-lang.org/crate/src/page/home/mod.rs: update"]}
{"id": "C48", "title": "The coloured text is the typed text", "statement": "The coloured spans drawn behind the text area spell exactly the typed text, cut into maximal runs; a parenthesis is marked as unmatched exactly if it has no partner, whitespace is not coloured, and a symbol has the colour of its kind.", "quantifier": "every context and every typed text", "why_tests_cant": "texts are unbounded", "anchors": ["zia-lang.org/crate/src/page/home/command_input.rs: view", "zia/src/context.rs: lex"]}
{"id": "C49", "title": "An empty session starts empty", "statement": "Starting an empty session leaves nothing of the session before: a new context, no conversation, no tutorial, no text.", "quantifier": "every state of the page in which an empty session is started", "why_tests_cant": "a test would have to start it from every state", "anchors": ["zia-lang.org/crate/src/page/home/mod.rs: Model::reset, update"]}
{"id": "C50", "title": "A tutorial leads through its steps", "statement": "A visitor who only enters what a tutorial proposes, and presses the button for the next step when there is an answer, is shown at each step its explanation and proposed its command, has by then entered exactly the commands of the steps before, is never stuck unless the interpreter faults, and has entered all commands at the end if the last one is answered with something.", "quantifier": "every list of steps, every context and every sequence of answers", "why_tests_cant": "the tests of the tutorials run the commands but not the page that leads through them", "anchors": ["zia-lang.org/crate/src/page/home/mod.rs: update", "zia-lang.org/crate/src/page/home/command_input.rs: view", "zia-lang.org/crate/src/page/home/tutorials.rs: Model"]}
{"id": "C51", "title": "The shell prints one answer per line", "statement": "The terminal shell prints exactly the answers to the lines typed so far, in order, and the final word; if the interpreter faults it has printed the answers to all lines before.", "quantifier": "every context and every sequence of lines", "why_tests_cant": "sequences of lines are unbounded", "anchors": ["izia/src/main.rs: main"]}
{"id": "C52", "title": "Names do not matter", "statement": "If the names a user has chosen are replaced by other names, one for one, in every command of a session, the answers are the same with those names replaced and the same errors are reported; the words of the program itself are kept. Two sessions that differ in this way and are both answered leave contexts that differ in this way only, and where symbols can be looked up without a fault one session is answered iff the other is.", "quantifier": "every one-to-one renaming of words that keeps the words of the program, every context, every session and every order of hash tables that depends on keys only", "why_tests_cant": "there are infinitely many names and sessions; a test fixes both", "anchors": ["zia/src/context.rs: Context::execute, Context::lex, concept_kind_from_symbol", "zia/src/context_search.rs: ContextSearch", "zia/src/context_updater.rs: ContextUpdater", "zia/src/errors.rs: ZiaError"]}
{"id": "C53", "title": "Only let and forget teach", "statement": "A command that is answered with a text teaches nothing and forgets nothing, whether the text is an answer or the message of an error that is found before the change begins: every stored concept keeps its reduction, its definition, its string and its built-in meaning, nothing new reduces to it, and what is added are the names of new symbols and concepts without content. Such a command is always committed.", "quantifier": "every reachable context, every text", "why_tests_cant": "tests compare answers, not everything that is stored; histories are unbounded", "anchors": ["zia/src/context.rs: execute, call, call_pair, try_reducing_then_call", "zia/src/context_updater.rs: ContextUpdater"]}
{"id": "C54", "title": "A taught reduction holds", "statement": "If `let (x (-> y))` is answered with the empty text, then the concept of x reduces to the concept of y and to nothing else, and every other stored concept keeps its reduction, its definition, its string and its built-in meaning. A word that is known is taken for the concept it stands for; a new word names a new concept.", "quantifier": "every reachable context, every two different words, known or new", "why_tests_cant": "there are unboundedly many contexts and words; tests look at an answer, not at what else changed in the store", "anchors": ["zia/src/context.rs: execute, call_pair, execute_let, execute_reduction", "zia/src/context_updater.rs: update_reduction, new_labelled_concept"]}
{"id": "C55", "title": "What is forgotten is forgotten", "statement": "For a word x, `forget x` is answered with the empty text exactly when the concept of x reduces to something. Then that concept reduces to nothing, and every other concept keeps its reduction and every concept its definition, its string and its built-in meaning. Otherwise the answer is a message and the store is what it was.", "quantifier": "every reachable context and every known word", "why_tests_cant": "a test sees one context and one word; what else the store lost or kept is not visible in an answer", "anchors": ["zia/src/context.rs: execute, call_pair", "zia/src/context_updater.rs: delete_reduction", "zia/src/snap_shot.rs: apply"]}
{"id": "C56", "title": "A word is answered with what it reduces to", "statement": "A word entered as a command is answered with a name of the concept that is reached from the word's concept by following the stored reductions until there is no further one. Asking changes nothing in the store, and this holds for each of several words asked one after the other, so what was remembered from earlier questions does not alter a later answer.", "quantifier": "every reachable context, every known word and every list of such words", "why_tests_cant": "a test asks a few words in one context; whether a rule found by inference or a remembered tree overrides the stored reduction depends on the whole history", "anchors": ["zia/src/context.rs: execute, call, try_reducing_then_call", "zia/src/context_search.rs: recursively_reduce, reduce, infer_reduction, find_example_of_inferred_reduction", "zia/src/context_cache/macro.rs"]}
{"id": "C57", "title": "What was taught is what is answered", "statement": "After `let (x (-> y))` was accepted (answered with the empty text), entering the word `x` is answered with what `y` stood for before: a name of the concept that y's concept reduces to, or `y` itself when `y` was a new word. Asking changes nothing in the store.", "quantifier": "every reachable context, every two different words, known or new", "why_tests_cant": "a test teaches and asks once in a fresh context; the answer also depends on everything taught before, on the rules in the store and on what was remembered from earlier questions", "anchors": ["zia/src/context.rs: execute, execute_let, execute_reduction, label, try_reducing_then_call", "zia/src/context_search.rs: recursively_reduce, infer_reduction", "zia/src/context_delta.rs"]}
{"id": "C58", "title": "A session about words is answered as what was told says", "statement": "Start a new context and enter any number of commands, in any order, each `let (x (-> y))`, `forget x`, or a question consisting of a word `x`, where all words are ordinary symbols that are not part of the language; a word may be asked about or forgotten before anything was told about it, and the brackets around `-> y` may be left out of each command and question (`let (x -> y)`, `x -> y`). Then each question is answered exactly with the word reached by following, from `x` as far as possible, the pairs told and not forgotten before the question; `forget x` is answered with the empty text exactly if there is a pair for `x`, which is then no longer followed; `let (x (-> y))` with `x` not `y` is answered with the empty text exactly if there is no pair for `x` and `y` does not lead to `x`, and otherwise rejected, naming the word `x` already reduces to or the loop, without any effect; `let (x (-> x))` acts as `forget x`; a question `x y` about words mentioned before is answered with the answers to `x` and to `y`, separated by a space; a question `x ->` is answered as `x` if there is a pair for `x`, and with itself otherwise; `label_of x` is answered with `x` in single quotes, whatever was told about it; and questions `x (-> y)` about words mentioned before, which may occur anywhere in the session, change none of this. The answers so described exist for every session and are the only ones. The same question may get a different answer after more was told or forgotten, and a forgotten word may be told about anew.", "quantifier": "every length of session, every interleaving of telling, forgetting and asking, every choice of words", "why_tests_cant": "the sessions are unbounded, and the answer depends on the whole history: the store, the names given along the way, and a cache that is filled by questions and must be right after the next command; a test runs a handful of fixed sessions", "anchors": ["zia/src/context.rs: execute, execute_let, execute_reduction, label, try_reducing_then_call", "zia/src/context.rs: call_pair; zia/src/context_updater.rs: delete_reduction", "zia/src/context_search.rs: recursively_reduce, infer_reduction", "zia/src/context_cache/macro.rs", "zia/src/context_delta.rs"]}
{"id": "C59", "title": "A question about a reduction is answered as what was told says", "statement": "Start a new context and enter any number of commands `let (x (-> y))`, `forget x` and questions about words that are ordinary symbols and not part of the language. Then the question `x (-> y)` (or `x -> y`) about two words mentioned before is answered `true` exactly if the pairs told and not forgotten lead from `x` to `y`.", "quantifier": "every session about words, every pair of words mentioned in it", "why_tests_cant": "the answer depends on the whole history of what was told and forgotten, and chains may be of any length; tests try chains of one or two steps", "anchors": ["zia/src/context_search.rs: reduce, reduce_pair", "zia/src/reduction_reason.rs: determine_reduction_truth, determine_evidence_of_reduction", "zia/src/context.rs: call_pair, reduce_and_call_pair"]}
{"id": "C60", "title": "An accepted teaching is stored as said, and nothing else changes", "statement": "Whatever was said before, if a command `let (t (-> u))`, `let (x (:= (l r)))`, `let t` or `forget t` is answered without a message, then afterwards the concept that `t` stands for reduces to that of `u`, that of `x` is composed of those of `l` and `r`, that of `t` reduces to `true`, or that of `t` does not reduce; and no other reduction, definition or name of a concept stored before is changed.", "quantifier": "every history of commands, every such command, whatever is written in it, every state of the cache", "why_tests_cant": "the effect depends on what all earlier commands stored, the command goes through two layers of pending changes before it is stored; tests look at the answers to single questions after a few commands", "anchors": ["zia/src/context.rs: execute_let, match_righthand_pair, execute_reduction, execute_composition, define, call_pair", "zia/src/context_updater.rs: concept_from_ast, update_reduction, insert_composition, delete_reduction", "zia/src/context_snap_shot/mod.rs: apply", "zia/src/context_delta.rs"]}
{"id": "C61", "title": "The cache cannot spoil the built-in concepts", "statement": "Whatever commands a context and its clones have run, and whatever they have left in the cache they share, the tree that a context takes for a built-in concept (such as `true` when a command asserts something) is of that built-in concept.", "quantifier": "every history of commands on a context and its clones, every built-in concept, every amount of fuel", "why_tests_cant": "the cache is filled by every search of every command of every clone, under pending changes and substitutions that are gone when the entry is used; tests use one context and few commands", "anchors": ["zia/src/context_cache/macro.rs: get_syntax_tree_or_else, insert_syntax_tree", "zia/src/context_search.rs: to_ast, concrete_ast, spawn", "zia/src/context.rs: cache, execute_let"]}
{"id": "C62", "title": "Nothing stored is lost or becomes something else", "statement": "Whatever command is answered, accepted or rejected, every concept that was stored is still stored with its number, and it is still what it was: a built-in concept of its type, a text with its characters, a variable of its kind, or an ordinary concept. The store never shrinks and a text that has been heard stays known. The same holds over whole sessions.", "quantifier": "every reachable context, every command or list of commands that is answered, every amount of fuel, every order of hash tables", "why_tests_cant": "a command can change the parts and reductions of any number of stored concepts, and which ones depends on the whole history; tests look at the answer of a few commands", "anchors": ["zia/src/context_snap_shot/mod.rs: apply", "zia/src/concepts/mod.rs: change_composition, change_reduction", "zia/src/concepts/trait.rs: compose_delta", "zia/src/context.rs: execute, commit"]}
{"id": "C63", "title": "A question asked again is answered in the same way", "statement": "If a question is answered, and it is asked again after any number of other questions with nothing told or forgotten in between, then it is answered again, with the same text. This includes questions written with brackets one time and without them the other time.", "quantifier": "every session before the question, every question, every sequence of questions in between", "why_tests_cant": "asking changes the state: new words get concepts and results are remembered, so the second answer is computed along another path than the first one; tests ask a few questions once", "anchors": ["zia/src/context.rs: execute, try_reducing_then_call", "zia/src/context_cache/macro.rs", "zia/src/context_search.rs: recursively_reduce", "zia/src/context_delta.rs"]}
{"id": "C64", "title": "The order in which things are told does not matter", "statement": "Start a new context and enter any number of commands `let (x (-> y))` (or `let (x -> y)`) about different ordinary words that are not part of the language, all of them accepted. Then, entered in any other order, they are all accepted too, and every session about words that follows gets the same answers.", "quantifier": "every number of commands, every order of them, every session that follows, every order of hash tables", "why_tests_cant": "there are as many orders as permutations, and each gives a different store (other identifiers, other places in the tables) and a different cache; tests enter their commands in one order", "anchors": ["zia/src/context.rs: execute, execute_let, execute_reduction", "zia/src/context_updater.rs: update_reduction", "zia/src/context_search.rs: recursively_reduce", "zia/src/context_cache/macro.rs"]}
{"id": "C65", "title": "To forget is to undo", "statement": "In a session about words that starts in a new context, if `let (x (-> y))` with two different words is accepted and `forget x` comes next, then `forget x` is accepted, and all other commands of the session are answered as if neither of the two had been entered.", "quantifier": "every session before, every pair of words, every session after, every order of hash tables", "why_tests_cant": "the concepts of the words and whatever was remembered stay behind, and must not change any later answer; a test can look at a few later questions only", "anchors": ["zia/src/context.rs: execute, execute_reduction, call_pair", "zia/src/context_updater.rs: update_reduction, delete_reduction", "zia/src/context_cache/macro.rs"]}
{"id": "C66", "title": "Only the symbols and brackets of a command matter", "statement": "In any context, two commands that consist of the same symbols and brackets in the same order have the same outcome: the same answer and the same context afterwards, or the same crash. So spaces around a command, the number and kind of spaces between symbols, and spaces next to brackets do not matter.", "quantifier": "every context, every pair of commands with the same symbols and brackets, every session of such commands", "why_tests_cant": "there are infinitely many ways to space a command, and each gives other lexemes at other positions; tests use one spacing", "anchors": ["zia/src/context.rs: lex, nest, ast_from_expression, execute", "zia/src/lexer.rs", "zia/src/nester.rs"]}
{"id": "C67", "title": "Redundant brackets do not matter", "statement": "In any context, brackets around a single symbol and brackets directly around brackets can be added or left out anywhere in a command, any number of times, without changing the outcome: the same answer and the same context afterwards, or the same crash.", "quantifier": "every context, every command, every way to add or leave out such brackets", "why_tests_cant": "the brackets may be nested to any depth at any place; tests have a few fixed commands", "anchors": ["zia/src/context.rs: nest, syntax_list_for_nested_syntax, ast_from_nested_syntax, execute", "zia/src/nester.rs"]}
{"id": "C68", "title": "Unrelated words do not interfere", "statement": "Start a new context and enter a session about ordinary words that are not part of the language, in which commands about words of one kind are mixed with commands about other words and no command is about both. Then the commands of the first kind get the same answers as when only they are entered.", "quantifier": "every session, every way to divide its words into two kinds, every way to mix the commands, every order of hash tables", "why_tests_cant": "the commands of both kinds use the same store, the same table of strings, the same rules and the same cache, and each may leave something behind in them; tests try a few mixtures", "anchors": ["zia/src/context.rs: execute, execute_let, execute_reduction", "zia/src/context_updater.rs: update_reduction", "zia/src/context_search.rs: recursively_reduce, find_inferred_reduction", "zia/src/context_cache/macro.rs"]}
