# Design

A formal model in Lean 4 of the Zia interpreter (`/repo/zia/src`), and proofs of the properties in `properties.jsonl`.

## Trusted base

* Lean's kernel (4.33.0) and at most the axioms `propext`, `Classical.choice`, `Quot.sound`.
* The reading of the Rust code: every definition cites the file and lines it models; simplifications are stated in its comment.
* Strings are lists of characters (`List Char`); Rust `char::is_whitespace` is the explicit Unicode White_Space table.
* Committed concept ids are indices into a list of concepts. The real slot map never frees a slot (applying a removal is `todo!()`), so keys are never reused.
* Hash maps and sets are association lists and lists. Where the code iterates over one, the model visits the entries in an arbitrary order (`class HashOrder`: any function that permutes lists), and theorems hold for every such order. Simplification: within one command, tables filled in the same way are visited in the same order; between commands the order may change. Concrete runs use the order of insertion.
* `Rc`/`Arc` sharing is value semantics. Integer overflow, memory and stack size are not modelled; unbounded recursion is an explicit `diverge` outcome of a fuel-indexed evaluator.
* `debug_assert!` is modelled as a panic (debug profile).
* Panics (`panic!`, `unwrap`, `todo!`, slice out of range) are explicit error values.

## How histories are treated

* `Spec.History Q` is the set of contexts reached from the freshly labelled store by commands whose changes satisfy `Q`; `Spec.Reachable` is the case without a condition. Commands run with any fuel that lets them end, and the shared cache may change arbitrarily between commands.
* Every command only adds changes of a few kinds, each after certain checks (`Lemmas/Trace.lean`). Invariants are proved by induction over these changes, with a simulation between the pending changes and the store they commit to (`Lemmas/Sim.lean`, `Lemmas/Run.lean`).
* A new context is computed once, as a literal (`Verif/Boot0.lean`, `Verif/Boot.lean`); the equations `boot1_eq` ... `new_eq` are checked by kernel evaluation of the model. The elaborators in `Verif/Literal.lean` only write down the literals; nothing is trusted from them.
* `Verif/Witness/*.lean` are runs of the model on concrete commands, also checked by kernel evaluation. They prove that a state is reachable, or that a command crashes, for the properties that are false of the code.
* Front ends: `Verif/Page.lean` models the messages, scheduled inputs and frames of the web page and the loop of the terminal shell. Styles, sizes, focus, scrolling, the browser and the Seed framework are not modelled: a frame renders the model and then delivers the messages that waited for it, and the text area exists while the home page was rendered last.
* Boundary: the tests and the build scripts of `/repo` are not modelled. The commands of the tests (`Verif/Conformance.lean`) and of the tutorials (`Verif/TutorialTests.lean`) are run on the model with their expected answers. The interpreter crate is modelled from `Context::execute` down; concurrency (`Arc`) only through the shared cache.

## Plan per property

* **C01 Lexing loses nothing** — model `Lex.lex` (fold over characters); induction over the command.
* **C02 Lexemes are maximal runs and are classified by their whole text** — independent spec `Lex.Canonical` (run segmentation); prove lex meets it and that any two canonical segmentations of one string are equal.
* **C03 Parenthesis links are mutual and well nested** — stack invariant of the fold; spec `matching` by bracket depth.
* **C04 Grouping accepts exactly the well-formed commands and reports the right error** — spec: reference recursive scanner over the bracket word; simulate `nest`.
* **C05 Grouping keeps the symbols and the brackets the user wrote** — inductive grouping relation between token list and tree; `nest` result satisfies it, relation is functional.
* **C06 Parsing keeps every symbol, in order** — leaves of the parsed tree = input list, for right associative and single operators; negated by witness for left associativity. Outcome: false of the code (`leaves_lost`: `a + b` is read as `a` once `+` is left associative); `leaves_kept_partial` for every run in which no left associativity is found.
* **C07 Expressions group to the right by default** — induction on list length through `ast_from_syntax_list`. Outcome: proved (`groups_to_the_right`).
* **C08 Lower precedence operators bind looser** — an inductive description of the tree (`Spec.Reads`): cut before the symbols of lowest precedence, each applied to the reading of the rest of its piece, the pieces nested to the right. Symbols are compared by a ranking; a run counts if every answer it got about precedences agrees with the ranking (`Spec.guarded`), so that the hypothesis can be checked by running. Outcome: proved (`read_by_precedence`); without a ranking, `cut_at_found_lowest`.
* **C09 Left associative operators group to the left** — expected false of the code (heap iterated largest first, slice panics): negation by witness. Outcome: false of the code for every list (`left_drops_the_rest`), and it may crash (`left_crashes`).
* **C10 Parsing always ends** — fuel-based parser; fuel = length suffices for every list. Outcome: proved (`parsing_ends`, `parsing_bound`).
* **C11 Syntax tree comparison is an equivalence** — reflexivity and symmetry proved; transitivity refuted by witness. (expected partial)
* **C12 Containment means a proper subexpression** — spec `ProperSub` relation; `contains` iff.
* **C13 Free and binding variables of an expression are computed correctly** — independent spec of free/binding occurrences.
* **C14 Substitution replaces exactly the occurrences** — structural induction.
* **C15 Merging substitutions succeeds iff they agree** — map extensionality on association lists.
* **C16 A matched example really is an instance of the pattern** — structural induction with merge lemmas.
* **C17 Rule application cannot loop through the same variable assignment** — invariant over pushes.
* **C18 Reduction links are two-way** — invariant of `apply` on every change list; two-way under the guard that the recorded `before` is the stored one; stale back link witness. (expected partial)
* **C19 Composition links are two-way** — same, for compositions; refuted for composition updates. (expected partial)
* **C20 One concept per pair** — follows from C19 forward links.
* **C21 Chains of reductions never loop** — acyclicity preserved by guarded update; API-level counterexample by running the model. (expected partial)
* **C22 No concept is part of itself** — as C21 for compositions. (expected partial)
* **C23 Built-in concepts are permanent and irreducible** — invariant of `apply` over every change list and history.
* **C24 Stored references never dangle** — invariant of `apply` over every change list and history.
* **C25 New concepts get fresh ids** — invariant over change set operations.
* **C26 A nested change set reads like its layers applied in order** — list algebra over layers. What a string is changed to is right in all layers (string_start_through_layers says when what it was before is also right); what it was before is lost when a layer removes a string that an earlier one changed (string_start_lost).
* **C27 What a command sees before commit is what is stored after commit** — simulation between the pending reader and `apply`; exceptions listed as witnesses. (expected partial)
* **C28 Committing never crashes** — false: witness `let b b -> c`. (expected negation)
* **C29 Labels resolve to the concept they were given to** — symbolic execution of introducing and renaming on an arbitrary settled store (`introduced_symbol`, `renamed_partial`); looking up is sound and displaying agrees with it by invariants of the store (`lookup_named_partial`, `symbols_distinct_partial`, `displayed_named_partial`). The converse is false: `displayed_symbol_shared` shows a concept that is displayed as a symbol that stands for another one. Partial because lookups are shown to be sound only for histories without replaced reductions and definitions.
* **C30 Caching never changes an answer within one state** — false: inferences are kept per rule, whatever the rule was applied to, so after `mortal a` (true) the answer to `mortal b` is also `true`; and a commit keeps results that name concepts as they were named before the commit, so that `a foo` crashes when asked twice. Both by witness. The part that holds: a reduction just computed is found again unchanged; and in sessions about words (C58) leaving out a question, or emptying the cache between commands, changes no other answer (`words_session_no_trace_partial`).
* **C31 A cloned context is independent** — `Verif/World.lean` models several contexts that share caches. By induction over the steps of a program: what a context stores is changed by no step of another one, and every clone is a reachable context. Its answers are not independent: negation by a run in which a query to a clone changes an answer of the original. For words they are (`Props/Clones.lean`): after a session about words (C58), the questions put to the context and to its clones, in any order and through the shared cache, are all answered as the session says.
* **C32 Comparison is coherent in both directions** — finite decision table lifted to all expressions: `comparison_answer` characterises the answer by the truth values of the two questions, `comparison_mirror` gives the mirror image.
* **C33 `a -> b` is true iff a reduces to b in one or more steps** — transitive closure of the one-step reducer, threaded through the cache it fills; the case in which both sides reach each other is a crash (`mutual_reduction_crashes`).
* **C34 Normal forms are irreducible** — induction over fuel; partial: the second run is shown to change nothing only for results without variables, because reductions of other expressions are not remembered.
* **C35 A generalisation match is an instance** — induction over the stored pattern, in both directions (`match_is_instance`, `instances_match`).
* **C36 Printing an expression and reading it back gives the same tree** — false: parts of compound parts are printed without their parentheses, so `x ((a b) c)` is answered `x a b c`, and `answer_not_read_back` shows a state where typing that is answered differently. Proved with a printer and reader of trees of their own (Spec/Print): the text is always accepted, and reads back as the tree iff compound parts of compound parts begin with a symbol (`text_read_back_partial`); what the model prints for a pair is that text when the parts associate to the right (`joint_text`, `joined_read_back_partial`). Missing: parts that associate to the left.
* **C37 Variable names do not leak between commands** — symbolic execution of `execute`.
* **C38 The same variable name means the same variable within one command** — induction over the tree with the label map as state.
* **C39 A rejected command changes nothing** — false: `let a := b` in a new context is rejected and stores the labels `a` and `b`; negation by witness. Proved for the commands rejected because of their parentheses; and in sessions about words (C58) leaving out a rejected command changes no other answer (`words_session_no_trace_partial`).
* **C40 Every command is answered** — false: `let let` crashes a new context; by the stability of outcomes it does so with every bound on the recursion. Proved for the commands rejected because of their parentheses; and in sessions about words (C58) leaving out a rejected command changes no other answer (`words_session_no_trace_partial`).
* **C41 Substitution keeps the variable sets right** — false: `substitute` edits children in place; negation by witness, and the cases where it holds.
* **C42 Equal expressions hash equally** — false: equality ignores the concept when both have text, hashing does not; negation by witness, and the part that holds.
* **C43 Answers are determined by the commands** — the recursion of the model is bounded by fuel; monotonicity in the fuel of every function of the model, by induction, shows that the bound changes no result that is reached. So for each order of visiting hash tables a command has one answer; that the answer depends on this order is C44.
* **C44 Answers do not depend on the order of hash tables** — false: after `let (p _x_) -> a` and `let (_x_ q) -> b` the answer to `p q` is `a` or `b`; negation by two runs of the model with different orders. The part that holds: the set of rules that may apply to an expression is the same for every order, by induction on the expression; and the answers of sessions about words (C58) are the same for every order, as they are determined by what was told.
* **C45 The table of strings is exact** — invariant of the store and the pending strings over histories, in both directions.
* **C46 The conversation on the page is the session** — model of the page as a machine of messages and frames (`Verif/Page.lean`); invariant over visits. Outcome: proved (`page_conversation`, `page_submit`).
* **C47 The page does not crash by itself** — case analysis on the offered events with an invariant on what was rendered. Outcome: false of the code. `page_crashes`: in each of the three tutorials, entering commands that are answered with nothing up to the last step makes `steps[current_step_index]` in `command_input.rs` 40 go out of range. `page_crash_partial`: every other crash is a fault of the interpreter.
* **C48 The coloured text is the typed text** — from the invariant of lexing. Outcome: proved (`page_text`).
* **C49 An empty session starts empty** — `Model::reset` clears neither the active tutorial nor the text. Outcome: false of the code (`empty_session_tutorial`, `empty_session_false`); `empty_session_partial` is what holds.
* **C50 A tutorial leads through its steps** — relation `Led` of a visitor who follows; induction. Outcome: proved (`tutorial_followed`, `tutorial_proceeds`, `tutorial_completed`).
* **C51 The shell prints one answer per line** — induction over the lines. Outcome: proved (`shell_prints`).
* **C52 Names do not matter** — renaming is defined on texts word by word (`ren` of Spec/Words) and on everything the program keeps; every function of the model is shown to commute with it, from the store up to a whole command (Lemmas/Words*). Lexing looks up every prefix of a symbol, so a fault of such a lookup could depend on the name: the theorems either assume that both sessions are answered (`session_renamed`, `names_do_not_matter`) or that lookups do not fault (`command_renamed`, `session_renamed_clear`). The words `x`, `y`, `z` of the variables in the set-up commands count as words of the program. Outcome: proved. `chain_any_names` and `syllogism_any_names` are what it gives for two sessions of a new context (insertion order): they are answered as expected for all names.
* **C53 Only let and forget teach** — a command is split into reading, which only introduces symbols and variables (relation `Adds`, Lemmas/Quiet), and carrying out, which changes nothing if it ends with a text or an early error (`Quiet`, by induction over the recursion of `call`); the introductions are replayed on the store (Lemmas/Teach). Outcome: proved (`answered_teaches_nothing`, `teaching_is_not_answered`), and used for C28 (`answered_commits_partial`) and C39 (`rejected_early_partial`).
* **C54 A taught reduction holds** — the text is parsed for every x and y (Lemmas/LearnParse), the search gives back the trees of plain words (relation `Trees`, Lemmas/Trees, by induction over the search), so that the command is one pending reduction (Lemmas/Learn, `Taught`) after the introductions of new words (Lemmas/LearnNew); the changes are replayed on the store (Lemmas/LearnStore). Outcome: partial (`taught_reduces_partial`): words that are defined as compositions, histories that replace reductions or change definitions, two known words with a cache that is not empty, and the command without brackets are missing.
* **C55 What is forgotten is forgotten** — the text is parsed for every x, the pair is expanded to the trees of the two words, whether or not it is stored, and the command is one pending removal or the error `RedundantReduction` (Lemmas/Forget, `Forgot`); between commands there is one pointer to the pending changes (`History.unpinned`), so that no other error occurs. Outcome: partial (`forget_forgets_partial`): words defined as compositions, histories that replace reductions or change definitions, and caches with another tree for one of the words are missing. `forgetting_undoes`: forgetting undoes teaching. Observation: the message of a rejected `forget` says that the reduction rule already exists.
* **C56 A word is answered with what it reduces to** — one invariant of the cache (every remembered tree of a concept is a tree of that concept, every remembered outcome for the words is the stored one) and one of the search: the search for an inferred reduction of a word finds nothing, because a conclusion `(_v_ (-> w))` would have to be found from a stored rule and no stored rule has that form (Lemmas/Inferred, Unruled, Query). Outcome: partial (`words_answered_partial`): words in compositions, stores with a rule that concludes the reduction of anything, histories that replace reductions or change definitions, and a cache that is not empty at the start are missing.
* **C57 What was taught is what is answered** — the store after the command is described relation by relation (Lemmas/Told: reductions, compositions, names and strings after the command in terms of those before), so that the hypotheses of C56 carry over from the store before to the store after, and C56 answers. Outcome: partial (`taught_answered_partial`): what is missing for C54 and C56, a known word x that already reduces to something.
* **C58 A session about words is answered as what was told says** — refinement: an abstract machine whose state is the list of pairs told and not forgotten (Spec/Session: `Talk`), and an invariant relating it to the context (Props/Session: `Talking`: every mentioned word is found, is unconnected, and reduces in the store to exactly what its pair says; the cache is right about mentioned words; all other strings are from before). A word not mentioned before is given a concept while the command is read, so the parser and the searches then run over a store with pending changes: Lemmas/Grown and PendingStand describe that store, PendingParse what is read, PendingCommit what is stored at the end. Telling preserves the invariant by the description of the store of C57, forgetting by that of C55 refined to what concepts list (Lemmas/Lost), asking by that of C56, questions `x (-> y)` about mentioned words as described under C59; questions `x y` about mentioned words by reducing both words in turn (Lemmas/Couple, CoupleRead: nothing is stored about the pair, and no rule matches it); questions `x ->` in the same way, over a store in which `x` may be pending (Lemmas/Arrowed: here a rule of the language asks for the reduction of `x`); `label_of x` by reading the name in the store with pending changes (CoupleRead); rejected telling is followed through the parser, the searches of `let` and the associativity questions asked when pairs are written, all of which leave the cache right (Lemmas/Retold); induction on the session (`words_session`). The short forms `let (x -> y)` and `x -> y` are lists of three expressions, read by precedence: of the three only `->` takes part in a precedence relation of the store (`Wide.ranked`, `word_unranked`), so it is the one of lowest precedence, it is found to be right associative, and the tree is that of the form with brackets (Lemmas/Infix, InfixTell, InfixAsk). Spaces and redundant brackets do not matter by C66 and C67 (`words_session_spelt`). That the described answers exist and are unique is `words_session_answers`: at most one pair is kept per word and no word leads to itself. Outcome: proved. That a session is answered at all (does not run out of recursion) is supposed, as in every theorem about answers.
* **C59 A question about a reduction is answered as what was told says** — refuted by a session of four commands evaluated by the kernel (Witness/Wonder, `wonder_answered_wrongly`): after `let (a (-> p))`, `let (p (-> q))`, `let (b (-> q))` the question `a -> b` is answered `true`. If neither side leads to the other, both sides are reduced by one step at the same time and the question is asked again. What holds for the question `x (-> y)` or `x -> y`: its answer in any session of C58 is exactly the one given by an inductive definition on the pairs (`Verdict` in Spec/Session); by induction on it, the answer is `true` if the pairs lead from `x` to `y`, and if they do not and there is no pair for `y`, it is `false` or `z -> y` with `z` the end of the pairs from `x` (`wonder_answered_partial`). Lemmas/Wonder follows the search for the truth of the question, WonderCall the command; they need that the trees of words, of `-> y` and of `x (-> y)` kept in the cache under their texts are right (`Noted` in Lemmas/Query), that no rule matches the question and that nothing generalises it (Lemmas/Wide: facts about the compositions in a new context kept by all commands of the session). The form `x -> y` is read by precedence: see C58.
* **C60 An accepted teaching is stored as said, and nothing else changes** — Spec/Accepted states what a command is read as (`ReadAs`), what the trees stand for in the store reached (`Corresponds`, `Denotes`) and what changed there (`Learnt`, `Defined`, `Unlearnt`). Proved from the trace of pending changes (Lemmas/Accepted): the words of a command only add concepts, then the compositions that the trees need and that are not stored (Lemmas/Said), then the change itself. An assertion `let t` is a rule from `t` to `true`; it needs that the tree remembered for `true` is one of `true`, which C61 gives for caches that only commands have used. Partial: pairs whose text is a name, changed parts of a pair, renames (see C29) and commands that are stored concepts are missing.
* **C61 The cache cannot spoil the built-in concepts** — Spec/History `Lived`: contexts reached by commands, whose cache is their own or that of another such context (clones). Invariant of the memory (Lemmas/Remember: `CacheOk`), kept by every search whose view reads the built-in concepts without parts, hence by every command (Lemmas/Related) because its pending changes, by their trace, never give a stored concept new parts without making it unreadable (Lemmas/Remembered).
* **C62 Nothing stored is lost or becomes something else** — Spec/Nature: what a concept is, apart from its parts and reduction. Each single change of the store keeps it for every concept, except that parts may be given to a variable (Lemmas/Nature `Step.keepNature`); along the trace of a command parts are never given to a stored variable, because the concept is read first and reading a stored concept keeps the concept under it (`Emit.composed`).
* **C63 A question asked again is answered in the same way** — refuted by a session evaluated by the kernel (Witness/Cache, `repeated_question_crashes`): after `let a -> b` the question `a foo` about a new word `foo` is answered `b foo` and crashes when it is asked again, for every bound on recursion by C43, because the remembered result names the concept of `foo` as it was before it was stored. What holds: in every session about words (C58) a question that is answered twice, with only questions in between, is answered with the same text (`repeated_question_partial`): the answers are those of the abstract machine, which questions leave as it is, and its answers are determined. Outcome: `_partial`.
* **C64 The order in which things are told does not matter** — from C58: the answers of the abstract machine depend on which pairs there are, not on their order (`Talk.congr`); pairs that were all accepted are at most one per word and lead no word to itself, so they are accepted in every order (`Talk.allTold`, `Talk.tellAll` in Lemmas/Arrange, by induction). Outcome: proved (`told_in_any_order`), for sessions that are answered.
* **C65 To forget is to undo** — from C58: the pair told was the only one of its word, so what is left when it is forgotten is what was there before. Outcome: proved (`forgetting_undoes_telling`), for sessions that are answered.
* **C66 Only the symbols and brackets of a command matter** — Spec/Pieces: the symbols and brackets of a text, by a function of five lines. Lemmas/Pieces: the lexer is simulated by one without spaces and positions (`lexLoop_scan`), whose tokens, including faults of the classification of a prefix of a symbol, are determined by the symbols and brackets (`scan_pieces`, by induction on the text); grouping only looks at tokens (`nest_toks`). So the commands are equal as programs, in every context, also those that are not reachable (`spacing_ignored`; the kinds of spaces that are ignored are spelt out by `outer_spaces_ignored`, `inner_spaces_ignored` and `bracket_spaces_ignored`). Outcome: proved.
* **C67 Redundant brackets do not matter** — Spec/Brackets: texts in brackets, and the smallest congruence that drops brackets around a symbol or around brackets. Lemmas/Brackets: what is read from a grouped text is a function of its items (`buildFrom_read`, by induction on the items, with the description of grouping of C05), which has the same value for items that differ in such brackets (`itemsOf_same`, by induction on the congruence). Outcome: proved (`redundant_brackets_ignored`). Brackets around a whole command are not redundant: `(_x_ exists_such_that)` stores a bound variable, `_x_ exists_such_that` a free one (`outer_brackets_matter`, by evaluation).
* **C68 Unrelated words do not interfere** — from C58: in the abstract machine no pair ever leads from one kind of words to the other, so chains of pairs stay within their kind and the answers only depend on the pairs of that kind (`Talk.about` in Lemmas/Apart, by induction over the session). Outcome: proved (`unrelated_words`), for sessions that are answered.

## Wrong programs

`seeded/LOG.jsonl` has one line per wrong program: a realistic bug put into one definition of the model, in a copy outside this directory, and the theorems that no longer go through. Limits of this test:

* in the copy, the modules whose proofs evaluate whole sessions by `decide +kernel` (Boot, Witness) take those facts as assumptions, to keep one attempt to a few minutes; Conformance, TutorialTests and Props/PageCrash are left out, and so are six theorems about literal sessions;
* "failed" means that the proof no longer goes through. It does not show that the statement became false;
* an attempt without failures is looked at by hand: the edit is shown to be equivalent, or a statement is tightened (both noted in the log).
