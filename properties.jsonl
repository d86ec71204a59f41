{"id": "C01", "title": "Parse trees are derivations (soundness)", "statement": "Every ParseTree returned by the iterator of GrammarParser::parse_input / parse_input_starting_with is a derivation tree of the grammar: its root is the requested starting term, every inner node together with the sequence of terms of its children is one of the grammar's alternatives, and a child that is a nonterminal node is itself such a tree for that nonterminal.", "quantifier": "all grammars (any productions, including empty, recursive, ambiguous, duplicate ones), all inputs, all starting terms, every position in the returned sequence", "why_tests_cant": "unit tests check a finite list of grammars and inputs; the traversal arena, shared roots and edges interact differently on every grammar", "anchors": ["src/earley/mod.rs: earley, parse_tree, ParseTreeIter::next", "src/earley/traversal.rs: TraversalTree, TraversalMatchIter", "src/parser/mod.rs: GrammarParser::parse_input"]}
{"id": "C02", "title": "Parse trees spell the input", "statement": "Concatenating the terminal leaves of any returned ParseTree from left to right gives back the parsed input string, character for character.", "quantifier": "all grammars, inputs, starting terms and returned trees", "why_tests_cant": "depends on byte offset bookkeeping for every combination of term lengths, including empty terminals and multi-byte characters", "anchors": ["src/earley/input_range.rs: InputRange", "src/earley/traversal.rs: match_term", "src/earley/mod.rs: parse_tree"]}
{"id": "C03", "title": "Every derivation is eventually returned (completeness and fairness)", "statement": "For every derivation tree of the starting term whose leaves spell the input, there is a finite number n such that the n-th call of next() on the iterator returns exactly that tree. In particular infinitely ambiguous grammars enumerate all their trees.", "quantifier": "all grammars, inputs, starting terms and derivation trees (unbounded depth)", "why_tests_cant": "the set of trees is unbounded and may be infinite; missing a completion/prediction pairing for some order of events shows only for particular grammars", "anchors": ["src/earley/mod.rs: earley, TraversalQueue, CompletionMap", "src/earley/traversal.rs: predict, match_term"]}
{"id": "C04", "title": "How often a derivation is returned", "statement": "If the grammar has no repeated (left-hand side, alternative) pair then the trees returned by one iterator are pairwise different. With repeated pairs a tree is returned at most once per choice of one of the equal pairs at each of its inner nodes (the product, over the inner nodes, of the number of times the pair used there is listed), exactly that often when the iterator has ended, and eventually exactly that often for every tree even when it never ends.", "quantifier": "all grammars, inputs, starting terms, pairs of positions in the returned sequence", "why_tests_cant": "duplicates depend on de-duplication of predicted roots and edges over the whole history of the run", "anchors": ["src/earley/traversal.rs: TraversalTree::match_term, predict", "src/earley/mod.rs: TraversalQueue"]}
{"id": "C05", "title": "Exhausted iterator decides membership", "statement": "If next() returns None before any tree was returned, the input is not derivable from the starting term; if the first next() returns a tree, it is derivable; next() never returns None while some derivation has not been returned.", "quantifier": "all grammars, inputs and starting terms", "why_tests_cant": "a negative answer is a statement about all possible derivations, which no finite test covers", "anchors": ["src/earley/mod.rs: earley, ParseTreeIter::next", "src/parser/mod.rs: GrammarParser"]}
{"id": "C06", "title": "Iterator terminates on grammars without cyclic derivations", "statement": "If no nonterminal can derive itself through a non-empty chain of alternatives whose other terms can all derive the empty string, then draining the iterator takes finitely many steps and finally returns None.", "quantifier": "all grammars with that property, all inputs and starting terms", "why_tests_cant": "termination is a statement about all run lengths", "anchors": ["src/earley/mod.rs: earley, ParseTreeIter::next"]}
{"id": "C07", "title": "next() always returns", "statement": "Calling next() on the parse iterator returns after finitely many steps. (Expected to fail for cyclic grammars on inputs that they reject; the exact failing case is recorded.)", "quantifier": "all grammars, inputs, iterator states", "why_tests_cant": "non-termination cannot be observed by a finite test", "anchors": ["src/earley/mod.rs: earley, ParseTreeIter::next"]}
{"id": "C08", "title": "Starting term selects the root; unknown start yields nothing", "statement": "parse_input behaves as parse_input_starting_with with the left-hand side of the grammar's first production; a starting term that no production has as left-hand side with at least one alternative (for instance a terminal) makes the first next() return None for every input.", "quantifier": "all grammars, inputs and starting terms", "why_tests_cant": "ranges over every starting term, including terms not occurring in the grammar", "anchors": ["src/parser/mod.rs: parse_input, parse_input_starting_with", "src/earley/mod.rs: ParseTreeIter::new"]}
{"id": "C09", "title": "Parsing does not depend on the order of productions or alternatives", "statement": "Two grammars whose (left-hand side, alternative) pairs agree as sets return, for the same input and explicit starting term, the same set of trees; if they agree as multisets (repetitions included), draining both iterators gives the same trees, equally often, up to order.", "quantifier": "all pairs of grammars related by reordering, splitting or merging productions, all inputs, all starting terms", "why_tests_cant": "needs all reorderings of all grammars", "anchors": ["src/parser/grammar.rs: ParseGrammar::new", "src/earley/mod.rs: earley"]}
{"id": "C10", "title": "Deprecated parse entry points agree with the parser", "statement": "When build_parser() succeeds, the deprecated Grammar::parse_input / parse_input_starting_with return the same iterator results as the GrammarParser. They panic exactly when the grammar has no productions.", "quantifier": "all grammars, inputs and starting terms", "why_tests_cant": "agreement of two code paths over all inputs", "anchors": ["src/grammar.rs: parse_input, parse_input_starting_with, build_parser", "src/parser/mod.rs: new, new_unchecked", "src/parser/grammar.rs: new, new_unchecked"]}
{"id": "C11", "title": "Parsing an input never panics", "statement": "No call of next() on a parse iterator panics: every arena id that is looked up is valid, the expected edges exist and every slice of the unmatched terms is in range.", "quantifier": "all grammars, inputs, starting terms and every reachable iterator state", "why_tests_cant": "panic freedom is an invariant over all reachable internal states", "anchors": ["src/earley/mod.rs: earley, parse_tree", "src/earley/traversal.rs: TraversalTree::get, match_term, TraversalMatchIter", "src/append_vec.rs: AppendOnlyVec"]}
{"id": "C12", "title": "Input positions stay on character boundaries", "statement": "Every position at which the parser looks at the input is a character boundary not beyond the end of the input, so the remaining input it compares with a terminal is always the true remaining text (the fallback to the empty string is never taken, and the clamp of the advanced length never cuts).", "quantifier": "all Unicode inputs, all grammars with arbitrary Unicode terminals, every reachable iterator state", "why_tests_cant": "holds for byte offsets in every reachable state, for arbitrary multi-byte text", "anchors": ["src/earley/input_range.rs: InputRange::next, advance_by, after, is_complete"]}
{"id": "C13", "title": "Iterator is fused and resumable", "statement": "Once next() has returned None, all later calls return None. Drawing k trees and then more from the same iterator gives the same sequence as drawing them in one go.", "quantifier": "all grammars, inputs, starting terms, all interleavings of calls", "why_tests_cant": "ranges over all call histories", "anchors": ["src/earley/mod.rs: ParseTreeIter::next"]}
{"id": "C14", "title": "build_parser accepts exactly the fully defined grammars", "statement": "build_parser() succeeds if and only if the grammar has at least one production and every nonterminal occurring in an alternative is the left-hand side of a production that has at least one alternative; otherwise it returns ValidationError.", "quantifier": "all grammars", "why_tests_cant": "if-and-only-if over all grammars", "anchors": ["src/parser/mod.rs: GrammarParser::new", "src/parser/grammar.rs: ParseGrammar::new", "src/validation.rs: NonterminalSets"]}
{"id": "C15", "title": "Validation errors name a real undefined nonterminal", "statement": "Whenever validate() or build_parser() rejects a non-empty grammar, the message is 'Undefined nonterminals: <x>' with x occurring in some alternative and not defined by any production, whatever the hash iteration order.", "quantifier": "all grammars, all hash set iteration orders", "why_tests_cant": "the reported name depends on hash iteration order", "anchors": ["src/grammar.rs: validate", "src/parser/grammar.rs: ParseGrammar::new"]}
{"id": "C16", "title": "validate() and build_parser() agree", "statement": "validate() returns Ok exactly when build_parser() returns Ok. (Fails for productions without alternatives; the failing case and the exact agreement condition are recorded.)", "quantifier": "all grammars", "why_tests_cant": "agreement of two independent implementations of one check on every grammar", "anchors": ["src/grammar.rs: validate, build_parser", "src/parser/grammar.rs: ParseGrammar::new"]}
{"id": "C17", "title": "Term text round trip", "statement": "Term::from_str(&t.to_string()) == Ok(t) for every nonterminal whose name has no '>' and every terminal that does not contain both kinds of quotes; for all other terms the round trip does not give t back.", "quantifier": "all terms over all Unicode strings", "why_tests_cant": "all strings; quickcheck only samples", "anchors": ["src/term.rs: Display, FromStr", "src/parsers/mod.rs: term, terminal, nonterminal"]}
{"id": "C18", "title": "Expression text round trip", "statement": "Expression::from_str(&e.to_string()) == Ok(e) for every expression with at least one term, all of them printable terms (as in the term round trip).", "quantifier": "all expressions of any length", "why_tests_cant": "all lists of terms", "anchors": ["src/expression.rs: Display, FromStr", "src/parsers/mod.rs: expression"]}
{"id": "C19", "title": "Production text round trip", "statement": "Production::from_str(&p.to_string()) == Ok(p) for every production with a printable nonterminal on the left, at least one alternative and every alternative printable and non-empty.", "quantifier": "all productions of any size", "why_tests_cant": "all nested lists of terms", "anchors": ["src/production.rs: Display, FromStr", "src/parsers/mod.rs: production"]}
{"id": "C20", "title": "Grammar text round trip", "statement": "Grammar::from_str(&g.to_string()) == Ok(g) for every grammar with at least one production, all productions printable as in the production round trip, whichever of the plain and the extended parser handles the text.", "quantifier": "all grammars of any size", "why_tests_cant": "the text parser switches between two parsers and two formats depending on the text", "anchors": ["src/grammar.rs: Display, FromStr", "src/parsers/mod.rs: grammar_complete, plain_grammar, parsed_grammar, normalize_parsed_grammar"]}
{"id": "C21", "title": "Reparsing the printed form of any parsed BNF text is the identity", "statement": "For every string s: if Grammar::parse_from::<BNF>(s) is Ok(g), then Grammar::from_str(&g.to_string()) is Ok(g); the same holds for s in autodetected BNF format.", "quantifier": "all Unicode strings s, including extended syntax with groups and optionals", "why_tests_cant": "all accepted texts", "anchors": ["src/grammar.rs: parse_from, Display, FromStr", "src/parsers/mod.rs: normalize_parsed_grammar"]}
{"id": "C22", "title": "Layout and comments do not matter", "statement": "Inserting or removing whitespace and ';' comments between tokens of a BNF text (anywhere layout is allowed by the grammar syntax) does not change the parsed grammar: every text that spells the same tokens with any layout parses to the same grammar.", "quantifier": "all grammars and all layouts between tokens", "why_tests_cant": "all placements of all comments", "anchors": ["src/parsers/mod.rs: whitespace_plus_comments, term, expression, production, plain_grammar"]}
{"id": "C23", "title": "Accepted texts are exactly the concrete syntax", "statement": "Grammar::parse_from::<BNF>(s) succeeds exactly when s is a sentence of the documented concrete syntax (productions '<lhs> ::= alt | alt' with an optional '|' directly after '::=', quoted terminals, '<...>' nonterminals, '(...)' groups and '[...]' optionals of any nesting without layout directly after the opening bracket, layout and ';' comments after every other token), and then returns the grammar it denotes.", "quantifier": "all Unicode strings", "why_tests_cant": "rejection of all other strings cannot be tested", "anchors": ["src/parsers/mod.rs: parsed_grammar, parsed_production, parsed_expression, parsed_term"]}
{"id": "C24", "title": "The plain fast path is transparent", "statement": "For every text on which the plain (non-extended) parser succeeds, the extended parser followed by normalization succeeds with the same grammar, so the heuristic that chooses between them cannot change the result of from_str.", "quantifier": "all Unicode strings, both formats", "why_tests_cant": "the heuristic misjudges texts with quotes in comments or names; only a proof over all texts shows that this is harmless", "anchors": ["src/parsers/mod.rs: grammar_complete, plain_grammar, grammar_has_extended_syntax"]}
{"id": "C25", "title": "Parsed grammars are well formed", "statement": "Every grammar returned by from_str / parse_from has at least one production; every production has a nonterminal left-hand side and at least one alternative; every alternative has at least one term.", "quantifier": "all Unicode strings, both formats", "why_tests_cant": "all accepted texts", "anchors": ["src/parsers/mod.rs: grammar_complete, normalize_parsed_grammar", "src/grammar.rs: FromStr"]}
{"id": "C26", "title": "Format autodetection", "statement": "from_str parses as BNF exactly when the first character after leading whitespace and comments is '<', otherwise as ABNF; a text of one format is never silently read in the other.", "quantifier": "all Unicode strings", "why_tests_cant": "all leading layouts", "anchors": ["src/parsers/mod.rs: is_format_standard_bnf", "src/grammar.rs: FromStr"]}
{"id": "C27", "title": "Layout skipping is total, exact and idempotent", "statement": "Skipping layout never fails, returns a suffix of its input that does not start with whitespace or ';', and skipping again changes nothing.", "quantifier": "all Unicode strings", "why_tests_cant": "all strings", "anchors": ["src/parsers/mod.rs: whitespace_plus_comments"]}
{"id": "C28", "title": "Empty groups and optionals are rejected", "statement": "No text in which '()' or '[]' stands where a term is expected is accepted as a group or optional: parsing a group or optional always yields at least one alternative with at least one term.", "quantifier": "all Unicode strings", "why_tests_cant": "all texts", "anchors": ["src/parsers/mod.rs: parsed_anonymous_group, parsed_optional_group"]}
{"id": "C29", "title": "Normalization preserves the language", "statement": "For a text with groups and optionals whose referenced nonterminals are all defined, the normalized grammar derives from every user-defined nonterminal exactly the strings given by reading (A | B) as choice and [A] as optional.", "quantifier": "all extended grammars of any nesting depth", "why_tests_cant": "language equality over all grammars and all strings", "anchors": ["src/parsers/mod.rs: normalize_parsed_grammar, lower_expression, lower_term"]}
{"id": "C30", "title": "Generated names are fresh", "statement": "The nonterminals introduced for groups and optionals are pairwise different, different from every left-hand side in the text, each defined by exactly one production, and the user's productions keep their order, left-hand sides and number of alternatives.", "quantifier": "all extended grammars", "why_tests_cant": "all name clashes, including user rules already called __anonN", "anchors": ["src/parsers/mod.rs: normalize_parsed_grammar, fresh_anon_name"]}
{"id": "C31", "title": "Normalization is hygienic", "statement": "A nonterminal that is used but not defined in the text is still undefined after normalization. (Fails when the text uses an undefined nonterminal called __anonN; recorded with witness.)", "quantifier": "all extended grammars", "why_tests_cant": "capture depends on numbering", "anchors": ["src/parsers/mod.rs: fresh_anon_name"]}
{"id": "C32", "title": "An optional is a group with an empty alternative", "statement": "Replacing [A | B] by (A | B | '') in a text gives the same grammar.", "quantifier": "all extended grammars", "why_tests_cant": "all grammars", "anchors": ["src/parsers/mod.rs: lower_term"]}
{"id": "C33", "title": "terminates() decides productivity", "statement": "terminates() returns true exactly when the starting nonterminal can derive at least one finite string of terminals (or the grammar has no productions); it always returns.", "quantifier": "all grammars", "why_tests_cant": "fixpoint computation over all grammars", "anchors": ["src/grammar.rs: terminates", "src/production.rs: has_terminating_expression", "src/expression.rs: terminates"]}
{"id": "C34", "title": "Generated sentences belong to the language and are parsed back", "statement": "Whenever any of the generate functions returns Ok(s), for any strategy that returns alternatives of the production it is given, any random source and any callback, s is derivable from the first production's left-hand side; hence if build_parser() succeeds, parsing s returns at least one tree.", "quantifier": "all fully defined grammars, strategies, random sources, callbacks", "why_tests_cant": "all random outcomes", "anchors": ["src/grammar.rs: traverse_with_strategy, generate*", "src/parser/mod.rs: parse_input"]}
{"id": "C35", "title": "Accepted expansions satisfied the callback", "statement": "Every expansion of a nonterminal that contributes to a generated sentence was accepted by the callback: callback(name, text) returned true for each nonterminal occurrence with exactly the text it contributed.", "quantifier": "all grammars, strategies, random sources, callbacks", "why_tests_cant": "all retry histories", "anchors": ["src/grammar.rs: traverse_with_strategy, generate_seeded_callback_with_strategy"]}
{"id": "C36", "title": "Generation errors are exactly classified", "statement": "Generation returns an error without consulting the strategy when terminates() is false, the grammar is empty or the first left-hand side is a terminal; after that an error only arises from a production without a choosable alternative or a strategy returning None; it never panics with the built-in strategies.", "quantifier": "all grammars, strategies, random sources, callbacks", "why_tests_cant": "all executions", "anchors": ["src/grammar.rs: generate_seeded_callback_with_strategy, traverse_with_strategy"]}
{"id": "C37", "title": "Built-in strategies choose an alternative of the production", "statement": "RandomWalk, DepthBounded, CoverageGuided and Weighted return an alternative of the given production (or None only if it has none), for every random source and every state.", "quantifier": "all productions, depths, random outcomes, strategy states", "why_tests_cant": "all random outcomes and overflow cases", "anchors": ["src/generation.rs: RandomWalk, DepthBounded, CoverageGuided, Weighted"]}
{"id": "C38", "title": "DepthBounded guarantees termination", "statement": "With DepthBounded(max_depth) generation terminates for every random source. (The documented guarantee holds when every production has an alternative made of terminals only, with expansion depth at most max_depth; it fails otherwise, recorded with witness.)", "quantifier": "all grammars, depths, random sources", "why_tests_cant": "termination over all random outcomes", "anchors": ["src/generation.rs: DepthBounded"]}
{"id": "C39", "title": "CoverageGuided covers all alternatives", "statement": "As long as a production has an alternative not chosen before by this strategy value, the next choice for that production is such an alternative; after n choices for a production with n alternatives all of them have been chosen. Once everything is covered it behaves as RandomWalk with the same random source.", "quantifier": "all productions, random sources, interleavings of choices for several productions", "why_tests_cant": "all histories", "anchors": ["src/generation.rs: CoverageGuided"]}
{"id": "C40", "title": "Weighted chooses proportionally", "statement": "If the weights do not overflow u32 and are not all zero, the number of random draws in the drawing range that select alternative i is exactly its weight; alternatives of weight 0 are never selected. On overflow the total panics (debug) or wraps (release), and then a draw selects the first alternative whose unwrapped partial sum exceeds it.", "quantifier": "all productions, weights and random draws", "why_tests_cant": "distribution over all draws", "anchors": ["src/generation.rs: Weighted"]}
{"id": "C41", "title": "A terminating grammar can be generated from", "statement": "If terminates() is true then some sequence of choices makes generation succeed. (Fails when a nonterminal has several productions, because generation only uses the first one, and for an alternative with no terms; recorded with witnesses and proved without those.)", "quantifier": "all grammars", "why_tests_cant": "existence over all choice sequences; non-termination", "anchors": ["src/grammar.rs: terminates, traverse_with_strategy"]}
{"id": "C42", "title": "Parse tree display equals the compositional drawing", "statement": "The Display output of a parse tree is the line of the root followed by the drawings of its children, where every child drawing is indented with the branch characters for a non-last or last child; it has exactly one line per node (for line-free labels).", "quantifier": "all parse trees of any shape and depth, including nodes without children", "why_tests_cant": "the implementation mutates a shared set of active columns", "anchors": ["src/grammar.rs: ParseTree::fmt, fmt_node_prefix"]}
{"id": "C43", "title": "Mermaid output is the tree", "statement": "The Mermaid rendering consists of one header line and one edge line per non-root node; node numbers are distinct and numbered in preorder, every edge connects a node with its parent, with the right labels.", "quantifier": "all parse trees with nonterminal inner nodes", "why_tests_cant": "all shapes", "anchors": ["src/grammar.rs: MermaidParseTree::fmt"]}
{"id": "C44", "title": "Mermaid label escaping is lossless and safe", "statement": "Escaping a label leaves none of the special characters except '#' and ';' of the numeric entities it introduces, and decoding the entities gives the label back; hence distinct labels stay distinct.", "quantifier": "all Unicode strings", "why_tests_cant": "all strings", "anchors": ["src/grammar.rs: escape_mermaid_label, MERMAID_ESCAPE_CHARS"]}
{"id": "C45", "title": "Mermaid rendering of a parse result never panics", "statement": "Rendering a tree obtained from parsing with a nonterminal starting term never panics. (Panics for a terminal starting term that is a left-hand side; recorded with witness.)", "quantifier": "all grammars, inputs, starting terms, returned trees", "why_tests_cant": "reachability of unreachable!()", "anchors": ["src/grammar.rs: MermaidParseTree::fmt"]}
{"id": "C46", "title": "Removing terms, alternatives and productions", "statement": "remove_term and remove_from_rhs remove exactly the first equal element and keep the order of the rest; remove_production removes exactly one equal production and keeps the others as a multiset; all return the removed element, and None without change if there is none.", "quantifier": "all expressions, productions, grammars", "why_tests_cant": "all lists with repetitions", "anchors": ["src/expression.rs: remove_term", "src/production.rs: remove_from_rhs", "src/grammar.rs: remove_production"]}
{"id": "C47", "title": "remove_production keeps the start", "statement": "Removing a production other than the first one leaves the starting term unchanged, and explicit-start parsing results only change by the removed alternatives. (Removing the first production makes the last one the start instead of the second; recorded with witness.)", "quantifier": "all grammars", "why_tests_cant": "order effects of swap_remove", "anchors": ["src/grammar.rs: remove_production, starting_term"]}
{"id": "C48", "title": "grammar!/production! build what the text denotes", "statement": "The production! and grammar! macros build the same productions and alternatives as the written text. (Only up to order: with three or more alternatives or productions the order, and with it the starting term of grammar!, differs; recorded with witness and exact characterization.)", "quantifier": "all macro inputs", "why_tests_cant": "all token sequences", "anchors": ["src/production.rs: production!", "src/grammar.rs: grammar!"]}
{"id": "C49", "title": "Concatenation operators", "statement": "Term+Term, Term+Expression and Expression+Term/Expression build the expression whose terms are those of both operands, with Expression+x appending in order.", "quantifier": "all terms and expressions", "why_tests_cant": "all lists", "anchors": ["src/term.rs: Add", "src/expression.rs: Add"]}
{"id": "C50", "title": "Completion index stays sorted and duplicate free", "statement": "The parser's index of waiting and completed traversals contains, for every (term, position), exactly the processed traversals waiting for / completing that term there, in increasing order of creation and without duplicates, so results are returned in a deterministic order.", "quantifier": "all grammars, inputs and reachable states", "why_tests_cant": "invariant over all reachable states", "anchors": ["src/earley/mod.rs: CompletionMap, sorted_vec_insert"]}
{"id": "C51", "title": "Exactly which sentences can be generated", "statement": "If the starting nonterminal is productive, the sentences that generate() returns for some random source are exactly those obtained by expanding it through alternatives of first productions that offer a choice (undefined nonterminals standing for their names); no strategy or callback can produce any other sentence. With one production per left-hand side and no single empty alternative this includes every sentence of the language.", "quantifier": "all grammars, sentences, strategies, callbacks, random sources", "why_tests_cant": "existence over all random sources and all sentences", "anchors": ["src/grammar.rs: generate, traverse_with_strategy", "src/generation.rs: RandomWalk"]}
{"id": "C52", "title": "The printed tree determines the tree", "statement": "Two parse trees whose inner nodes carry nonterminals and whose labels contain no line break have the same Display text only if they are equal. (Line breaks in labels can forge children; recorded with witness.)", "quantifier": "all pairs of parse trees of any shape", "why_tests_cant": "injectivity over all pairs of trees", "anchors": ["src/grammar.rs: ParseTree::fmt, fmt_node_prefix"]}
{"id": "C53", "title": "Adding a production", "statement": "add_production keeps the starting term of a nonempty grammar, adds exactly the alternatives of the added production, and every tree that was returned before is still returned by finitely many calls.", "quantifier": "all grammars, productions, inputs, starting terms", "why_tests_cant": "monotonicity over all grammars and inputs", "anchors": ["src/grammar.rs: add_production"]}
{"id": "C54", "title": "Exact termination condition of the parse iterator", "statement": "Draining the iterator ends with None if and only if no cyclic nonterminal (one that derives itself through alternatives whose other terms can be empty) is expected after a prefix of the input and derives some of the text that follows there. Otherwise, with finitely many parse trees the iterator returns all of them and then a call never returns, and with infinitely many parse trees every call returns a tree. With repeated alternatives a tree counts once for every way to choose among the listed copies.", "quantifier": "all grammars, starting terms, inputs and call histories", "why_tests_cant": "a finite test cannot tell a slow call from one that never returns, and the condition covers infinitely many grammars and inputs", "anchors": ["src/earley/mod.rs: earley, ParseTreeIter::next", "src/earley/traversal.rs: TraversalTree", "src/earley/mod.rs: CompletionMap"]}
{"id": "C55", "title": "From the text of a grammar to parse results", "statement": "build_parser succeeds on a parsed grammar text exactly when every nonterminal used in the text is declared in it (the name clash of C31 excepted); then the first call of next returns a tree exactly when the text, read with groups as choices and optionals as choices or nothing, produces the input; generated sentences are produced by the text as well.", "quantifier": "all grammar texts of both formats, all inputs", "why_tests_cant": "composition of text parsing, normalization, validation and Earley parsing over all texts and inputs", "anchors": ["src/grammar.rs: FromStr, build_parser, generate", "src/parsers/mod.rs: grammar_complete", "src/parser/mod.rs: parse_input"]}
{"id": "C56", "title": "Parts of parse trees", "statement": "Every inner node of a returned tree is returned when the text it spells is parsed from its label; exchanging a node for another parse of the same text from the same label gives a tree that is returned too.", "quantifier": "all grammars, inputs, starting terms, trees and nodes at any depth", "why_tests_cant": "ambiguity combines exponentially; tests sample few trees", "anchors": ["src/earley/mod.rs: ParseTreeIter", "src/earley/traversal.rs"]}
{"id": "C57", "title": "Unreachable productions do not matter", "statement": "Productions of nonterminals not reachable from the starting term have no influence on the set of returned trees.", "quantifier": "all pairs of grammars that agree on the reachable nonterminals, all inputs", "why_tests_cant": "all pairs of grammars", "anchors": ["src/earley/mod.rs: predict", "src/parser/grammar.rs: ParseGrammar::new"]}
{"id": "C58", "title": "Texts of single terms, expressions and productions", "statement": "Term, Expression and Production::from_str accept exactly the texts of the BNF syntax of one term, one sequence of terms, one production without groups, followed (never preceded) by layout; every other text is an error; they always return.", "quantifier": "all Unicode strings", "why_tests_cant": "all strings", "anchors": ["src/term.rs: FromStr", "src/expression.rs: FromStr", "src/production.rs: FromStr", "src/parsers/mod.rs: term, expression, production"]}
{"id": "C59", "title": "Exactly when generation need not end", "statement": "generate (and generate_seeded_with_strategy with RandomWalk, DepthBounded, Weighted) can run forever for some random source exactly if there is an infinite path of alternatives the strategy may choose, each reached after nonterminals that can be expanded; otherwise the recursion depth has a bound that holds for all random sources. If every nonterminal can be expanded to a sentence this means: a nonterminal that refers to itself is reachable from the start. No strategy that always chooses an alternative can run forever where RandomWalk cannot. CoverageGuided with some record of covered alternatives can run forever exactly where RandomWalk can, but a new one ends on some grammars where RandomWalk need not.", "quantifier": "all grammars, strategies with all parameters, all random sources and seeds", "why_tests_cant": "a statement about the absence of unbounded executions over all random sources", "anchors": ["src/grammar.rs: traverse_with_strategy, eval_terminal_with_strategy, generate_seeded_with_strategy", "src/generation.rs: RandomWalk, DepthBounded, Weighted, CoverageGuided"]}
{"id": "C60", "title": "Exactly which names normalization takes", "statement": "After reading a text with N groups and optionals the grammar has N more productions than the text, and the nonterminals with a production are those declared in the text and the first N of __anon0, __anon1, ... not declared in it. So an undeclared nonterminal is captured exactly if it is one of these, and build_parser succeeds exactly if every used nonterminal is declared or captured.", "quantifier": "all grammar texts of both formats", "why_tests_cant": "all texts and all name clashes", "anchors": ["src/parsers/mod.rs: normalize_parsed_grammar, fresh_anon_name", "src/grammar.rs: build_parser"]}
{"id": "C61", "title": "The Mermaid text determines the tree", "statement": "Two trees whose inner nodes carry nonterminals and have children have the same Mermaid text only if they are equal, whatever characters their labels contain; in particular parse trees of grammars read from text. (Childless inner nodes look like terminals; recorded with witness.)", "quantifier": "all pairs of trees", "why_tests_cant": "injectivity over all trees and labels", "anchors": ["src/grammar.rs: MermaidParseTree, escape_mermaid_label"]}
{"id": "C62", "title": "Parsing does not depend on names and characters", "statement": "Renaming nonterminals and characters injectively in grammar and input makes exactly the renamed trees come out; a renaming that identifies some still makes all renamed trees come out.", "quantifier": "all grammars, inputs, renamings (characters of different UTF-8 lengths included)", "why_tests_cant": "all renamings", "anchors": ["src/earley/mod.rs", "src/earley/input_range.rs", "src/parser/grammar.rs"]}
{"id": "C63", "title": "Mirrored grammars give mirrored trees", "statement": "The grammar with all alternatives and terminals reversed returns on the reversed input exactly the mirror images of the trees.", "quantifier": "all grammars, inputs", "why_tests_cant": "all grammars and inputs; the parser itself works from left to right only", "anchors": ["src/earley/mod.rs", "src/earley/traversal.rs"]}
{"id": "C64", "title": "Generation with a callback: exactly which sentences, exactly when it need not end", "statement": "For a callback that only looks at its arguments: the sentences that generate_seeded_callback (and generate_seeded_callback_with_strategy with RandomWalk, DepthBounded, Weighted) returns for some random source are exactly the expansions of the starting nonterminal through allowed choices all of whose parts are accepted. It can run forever for some random source exactly if a nonterminal with a rejected text can be reached, or there is an infinite path of allowed choices, each reached after accepted parts; otherwise there is a bound for all random sources. A callback that accepts nothing for the starting nonterminal never lets a sentence through.", "quantifier": "all grammars, callbacks, strategies with all parameters, all random sources", "why_tests_cant": "absence of unbounded executions and completeness over all random sources and callbacks", "anchors": ["src/grammar.rs: traverse_with_strategy, generate_seeded_callback, generate_seeded_callback_with_strategy", "src/generation.rs"]}
{"id": "C65", "title": "Exact amount of work of a complete parse", "statement": "Draining the iterator takes exactly one round of the Earley loop for every traversal created, and one more; in a grammar without repeated alternatives there is exactly one traversal for every viable partial derivation (an alternative of a term expected at a prefix of the input, with derivations of its first terms that spell what follows). In any grammar each viable partial derivation has as many traversals as there are ways to choose among the listed copies of the alternatives used in it. Draining is possible exactly if these are finitely many, and at no time are there more traversals.", "quantifier": "all grammars, starting terms, inputs, states", "why_tests_cant": "exact equality of a count over all grammars and inputs", "anchors": ["src/earley/mod.rs: earley, TraversalQueue", "src/earley/traversal.rs: TraversalTree::predict, match_term"]}
{"id": "C66", "title": "Unambiguous grammars take at most quadratically many rounds", "statement": "If no text has two derivations from the same term, no alternative is repeated and every nonterminal used derives something, then draining ends within P·(n+1)(n+2)/2 + 1 rounds, P being the number of places in the alternatives and n the number of characters of the input; and within P·(n+1)·k + 1 rounds if terms are expected at only k places of the input. Right recursion really needs quadratically many rounds, left recursion linearly many.", "quantifier": "all such grammars, all starting terms and inputs of every length", "why_tests_cant": "upper bound for all inputs of all lengths", "anchors": ["src/earley/mod.rs: earley", "src/earley/traversal.rs"]}
{"id": "C67", "title": "Ambiguity costs exponential time even for rejected texts", "statement": "For <s> ::= <s> <s> | 'a' and n+1 letters 'a' the iterator returns exactly Catalan(n) different trees; for any text starting with them draining takes more than Catalan(n) rounds; in particular the single call of next() that returns None for a^(n+2) b takes more than 2^n rounds.", "quantifier": "all n, all continuations of the text", "why_tests_cant": "asymptotic statement for all n", "anchors": ["src/earley/mod.rs: earley, ParseTreeIter::next"]}
{"id": "C68", "title": "Seeded generation is reproducible and isolated from the caller's random source", "statement": "generate_seeded and generate_seeded_callback depend on the caller's random source only through the 32 bytes it fills in, and advance it by exactly that, whatever happens during generation; in a series of calls the result of each only depends on its grammar and its position. generate_seeded is generate_seeded_callback with a callback accepting everything and generate_seeded_with_strategy with RandomWalk seeded by these bytes; generate and generate_callback are these functions with a fresh generator.", "quantifier": "all grammars, random sources, callbacks, series of calls", "why_tests_cant": "all random sources and series of calls", "anchors": ["src/grammar.rs: generate_seeded, generate_seeded_callback, generate, generate_callback"]}
{"id": "C69", "title": "Where and how a wrong grammar text is reported", "statement": "The message of the ParseError that parse_from/from_str return names exactly one position of the text and one error kind, namely those of the fault described by a separate specification of faulty texts (Spec/Errors); a text has a fault exactly if it is not a grammar text; the message determines both; only the kinds Eof, Tag, Char, Not and (ABNF) Satisfy occur. Modelling the payload does not change any result. The exact text of the messages (Parsing error, with remaining input and kind; of the two other conversions of nom errors too), and the same position from the nom-level entry point `grammar`.", "quantifier": "all texts, both formats, any alphabetic table", "why_tests_cant": "equivalence over all texts", "anchors": ["src/error.rs: From<nom::Err>", "src/parsers/mod.rs: grammar_complete", "src/grammar.rs: parse_from, from_str", "src/term.rs: from_str", "src/expression.rs: from_str", "src/production.rs: from_str"]}
{"id": "C70", "title": "What the reported position says", "statement": "If the first production of a wrong text is in order, the error is Eof at the beginning of the first production that is not in order (a production followed by something that is not a left-hand side counts as not in order, so the position may be one production early); otherwise it is the fault of the first production and not Eof: missing name, missing separator, faults in alternatives. Faults in a group are reported at its bracket. Term::from_str reports the fault of a name, or what is left with Eof. Expression::from_str and Production::from_str report exactly the fault of a sequence of terms or of a production, or what is left with Eof.", "quantifier": "all texts, both formats", "why_tests_cant": "all texts", "anchors": ["src/parsers/mod.rs: grammar_complete, production, parsed_anonymous_group, parsed_optional_group", "src/term.rs: from_str"]}
{"id": "C71", "title": "Debug and release builds agree", "statement": "For every strategy a debug build of generation gives what a release build gives, or panics in the debug assertion. If the strategy only returns references into the productions it is given, as the four built-in strategies do, it never panics there. (With another strategy the builds differ: a debug build panics even for an equal expression, a release build can return a sentence outside the language.)", "quantifier": "all grammars, strategies, callbacks, random sources", "why_tests_cant": "all strategies and random sources", "anchors": ["src/grammar.rs: traverse_with_strategy (debug_assert)", "src/generation.rs"]}
{"id": "C72", "title": "What undefined nonterminals contribute to sentences", "statement": "A nonterminal without production contributes its bare name. A generated sentence contains no character that does not occur in a terminal or a name of the grammar; so the README's promise that undefined nonterminals are printed as `<identifier>` is not kept.", "quantifier": "all grammars, strategies, callbacks, random sources", "why_tests_cant": "all grammars and random sources", "anchors": ["README.md", "src/grammar.rs: traverse_with_strategy"]}
{"id": "C73", "title": "DepthBounded sentences are bounded in size", "statement": "If every first production has an alternative of terminals only, no alternative has more than B terms and no terminal or name more than T characters, then every sentence generated with DepthBounded { max_depth: m } has at most T * B^(m+1) characters.", "quantifier": "all grammars, depths, random sources, callbacks", "why_tests_cant": "all grammars and random sources", "anchors": ["src/generation.rs: DepthBounded (\"strictly bounded in size\")", "src/grammar.rs: traverse_with_strategy"]}
{"id": "C74", "title": "Trees without detours are returned first", "statement": "If in a returned tree a node is replaced by a node inside it that has the same label and spells the same text, the tree so obtained was returned earlier by the same iterator. Hence in the first tree no node contains another one with its label and text, and its depth is at most the number of productions times one more than the length of the input, however ambiguous or cyclic the grammar is.", "quantifier": "all grammars, inputs, starting terms, numbers of draws", "why_tests_cant": "all grammars, infinitely many trees", "anchors": ["src/earley/mod.rs: earley, TraversalQueue, CompletionMap", "src/earley/traversal.rs: TraversalTree"]}
{"id": "C75", "title": "Simpler alternatives are returned first", "statement": "If in a returned tree a node is replaced by a node with the same label and text for another listed alternative whose children are each a terminal or the same child after the same text, then the tree so obtained was returned earlier by the same iterator if that alternative has fewer terms, or if it has equally many and is listed first.", "quantifier": "all grammars, inputs, starting terms, numbers of draws", "why_tests_cant": "all grammars, infinitely many trees", "anchors": ["src/earley/mod.rs: earley, predict, TraversalQueue", "src/earley/traversal.rs: TraversalTree", "src/parser/grammar.rs: ParseGrammar::new_unchecked"]}
{"id": "C76", "title": "Reading a grammar text takes linear work", "statement": "The number of characters that parse_from looks at (counting every look of every combinator) is at most 137 n + 141 for a text of n characters, accepted or not, and at most 140 n + 144 for from_str; an accepted text is looked at completely, with its end. The count is not too low: the characters counted determine the result, so a text that agrees with a rejected one in as many characters as are counted is rejected, too. Naming the groups and optionals tries at most as many names as there are productions and brackets, which is at most n, even if the text declares such names.", "quantifier": "all texts, both formats", "why_tests_cant": "all texts; backtracking parsers of this kind are easily exponential in the nesting depth", "anchors": ["src/parsers/mod.rs: grammar_complete, parsed_term, xt_list_with_separator, whitespace_plus_comments, normalize_parsed_grammar", "src/grammar.rs: from_str, parse_from"]}
{"id": "C77", "title": "Recursion of the text parser is as deep as brackets are nested", "statement": "Calls of parsed_term are nested at most one deeper than the number of opening brackets in the text. There is no limit: for every k there is an accepted text of 2k + 9 characters for which they are nested k + 1 deep, and any text beginning with <s>::= and k opening brackets gets at least that deep, whatever follows. For every accepted text with k > 0 groups and optionals inside each other, wherever they are, and nowhere more, they are nested exactly k + 1 deep, however many brackets there are; without brackets at most 1 deep. The bound and the absence of a limit also hold for from_str.", "quantifier": "all texts, all depths", "why_tests_cant": "all texts and depths", "anchors": ["src/parsers/mod.rs: parsed_term, parsed_anonymous_group, parsed_optional_group"]}
{"id": "C78", "title": "Probabilities of the sentences generated", "statement": "With an ideal random source (each draw below n uniform and independent), the probability that generation returns a sentence with any given property within n nested expansions is well defined and equals that of independent choices where, in the random walk, all alternatives of the first production of the expanded nonterminal are equally likely; in the depth-bounded strategy, from max_depth on, all alternatives of terminals only if there are any; in the weighted strategy, alternatives are chosen in proportion to their weights as long as their sum fits into 32 bits. The probability of ending follows the iteration for the extinction probability of a branching process.", "quantifier": "all grammars for which terminates() is true, numbers of expansions, weights, depths, predicates on sentences", "why_tests_cant": "sampling only estimates probabilities; all grammars", "anchors": ["src/generation.rs: RandomWalk, DepthBounded, Weighted, weighted_random_index", "src/grammar.rs: traverse, generate_seeded_with_strategy"]}
{"id": "C79", "title": "When random generation ends almost surely, and that it need not", "statement": "If expanding a nonterminal leaves on average at most m < 1 times its weight in nonterminals (for some weights of at least 1), the random walk (and the weighted strategy, with averages weighted accordingly) has returned within n nested expansions except with probability at most m^n times the weight of the start. In general it does not end almost surely although terminates() is true: for <s> ::= 'x' | <s> <s> <s> with probability at most 0.62; for <s> ::= <a> | <s> <s> <s>, <a> ::= 'x' the same holds with the depth-bounded strategy for every bound; with the default weights 100 and 1 <s> ::= 'x' | <s> <s> ends with probability at most 0.01.", "quantifier": "all grammars, weights, numbers of expansions", "why_tests_cant": "probabilities of events of unbounded length", "anchors": ["src/generation.rs: RandomWalk, DepthBounded, Weighted", "src/grammar.rs: traverse, terminates"]}
{"id": "C80", "title": "The list of parse trees is a simple function of grammar and input", "statement": "The trees an iterator returns, their order and multiplicity, whether it ends and the number of rounds it takes are those of a specification without ids, maps, sets, queues and positions: a list of partial derivations, begun with the listed alternatives of the start; the items are treated one after the other; each puts new items at the end of the list (the alternatives of a nonterminal it waits for, unless begun before; its extensions by complete derivations treated before; extensions by it of items that waited for it before; its extension by a terminal); the complete derivations of the whole input are the results. Draining takes one round for each item, and one more.", "quantifier": "all grammars (also with repeated alternatives), inputs, starting terms, numbers of calls", "why_tests_cant": "all grammars and inputs; exact order of infinitely many results", "anchors": ["src/earley/mod.rs: earley, predict, ParseTreeIter, CompletionMap", "src/earley/traversal.rs: TraversalTree"]}
{"id": "C81", "title": "Renaming keeps the order of the trees", "statement": "If nonterminals and characters are renamed in grammar and input without identifying any two, the iterator returns the renamed trees in the same order, ends alike and takes the same number of rounds.", "quantifier": "all grammars, inputs, starting terms, injective renamings (also ones that change UTF-8 lengths)", "why_tests_cant": "all grammars and renamings; hash maps keyed by terms and byte positions are on the way", "anchors": ["src/earley/mod.rs", "src/parser/grammar.rs", "src/earley/input_range.rs"]}
{"id": "C82", "title": "Only the lists of alternatives that are needed matter", "statement": "Two grammars that list the same alternatives in the same order for each term a parse from the given start can need return the same trees in the same order, end alike and take the same number of rounds. In particular productions with different left-hand sides may be exchanged, alternatives may be spread over several adjacent productions with the same left-hand side, and productions that are not needed may be added anywhere.", "quantifier": "all grammars, inputs, starting terms", "why_tests_cant": "all grammars", "anchors": ["src/parser/grammar.rs: ParseGrammar::new_unchecked, get_productions_by_lhs", "src/earley/mod.rs: earley"]}
{"id": "C83", "title": "Look-ups of the parser that never succeed", "statement": "In every round of the loop, none of the matches made is found in the map of earlier matches: with that map emptied before, the round has the same outcome. Everything in the index of waiting and complete traversals is smaller than the id inserted next, so that the sorted insertion always appends. The queue always holds the ids from the next one to the last one, in order.", "quantifier": "all grammars, inputs, starting terms, rounds", "why_tests_cant": "all rounds of all runs", "anchors": ["src/earley/traversal.rs: match_term", "src/earley/mod.rs: sorted_vec_insert, CompletionMap, TraversalQueue"]}
{"id": "C84", "title": "The parser recognises exactly the context-free languages", "statement": "The first call of next() on an iterator for a grammar, a starting term and an input returns a tree exactly when the input belongs to the language (in the sense of rewriting strings of symbols, as defined in Mathlib) of the context-free grammar whose rules are the alternatives. Conversely every context-free language over Unicode characters is decided by the parser of some grammar text: the text is accepted by from_str, build_parser succeeds, and for every input the first call of next() returns, with a tree if the input belongs to the language and with None otherwise.", "quantifier": "all grammars, starting terms and inputs; all context-free languages over char and all inputs", "why_tests_cant": "Quantifies over all languages and all inputs, and compares two definitions of derivability by induction.", "anchors": ["src/earley/mod.rs:earley", "src/earley/mod.rs:ParseTreeIter", "src/parser/mod.rs:GrammarParser", "src/grammar.rs:FromStr for Grammar"]}
{"id": "C85", "title": "Trees of texts with groups and optionals", "statement": "Take a grammar text in which every used nonterminal is declared, or at least not called __anonN. Replace, in a parse tree of the parsed grammar, every node of a generated name by its children. The results are exactly the trees of the text: one node for every nonterminal of the text, with the nodes of the terms of one of its alternatives below it, a group standing for one of its alternatives and an optional for one of its alternatives or an empty terminal. The iterator returns only such trees and every such tree of the input eventually.", "quantifier": "all grammar texts in both formats with any nesting of groups and optionals, all declared starting nonterminals, inputs and trees", "why_tests_cant": "Infinitely many nestings, inputs and trees; names of groups can collide with user names in ways tests do not try.", "anchors": ["src/grammar.rs:normalize_parsed_grammar", "src/grammar.rs:lower_term", "src/grammar.rs:lower_expression", "src/earley/mod.rs:ParseTreeIter"]}
{"id": "C86", "title": "Exactly one tree for each way to derive the input", "statement": "A way to derive an input from a grammar text consists of all choices made: which production and alternative for each nonterminal, which alternative for each group, and for each optional whether it is left out and else which alternative. The trees returned by the iterator belong to pairwise different ways, any finitely many ways get their trees within finitely many calls, and when the iterator is exhausted the number of returned trees is the number of ways. So lowering groups and optionals to generated nonterminals neither adds nor removes ambiguity.", "quantifier": "all grammar texts in both formats (used nonterminals declared or not called __anonN), all declared starting nonterminals, inputs and numbers of calls", "why_tests_cant": "Counts derivations for all texts and inputs; needs a bijection between choices in the text and derivations of the lowered grammar.", "anchors": ["src/grammar.rs:normalize_parsed_grammar", "src/grammar.rs:lower_term", "src/earley/mod.rs:earley", "src/earley/mod.rs:ParseTreeIter"]}
{"id": "C87", "title": "The crate's grammar for grammars generates only accepted grammars", "statement": "The files tests/fixtures/bnf.bnf and tests/fixtures/bnf.abnf are both accepted by Grammar::from_str and give the same grammar. Every sentence derivable from this grammar is accepted by Grammar::from_str; in particular generate_seeded never panics for it, never returns an error, and everything it returns is accepted. With ideal random numbers it returns with probability 1: the probability of needing more than n nested expansions is at most 716 (3/4)^n.", "quantifier": "all sentences of the grammar (infinitely many), all random sources, all tables of alphabetic characters that agree with ASCII", "why_tests_cant": "tests/grammar.rs samples 1000 sentences per run; the claim is about all of them, by induction over derivations.", "anchors": ["tests/grammar.rs:prop_bnf_grammar_from_str", "tests/grammar.rs:generate_grammar_with_gen", "src/grammar.rs:FromStr for Grammar", "src/grammar.rs:generate_seeded"]}
{"id": "C88", "title": "Printed grammars are sentences of the grammar for grammars", "statement": "The printed form of every grammar whose names are letters followed by letters, digits and hyphens, whose terminals consist of the characters of the grammar for grammars with at most one kind of quotes, and which has no empty alternatives, is a sentence of the grammar for grammars, and the parser built from that grammar finds a tree for it with the first call. The grammar for grammars itself is not among its sentences, neither as the text of the file nor printed.", "quantifier": "all such grammars, of any size", "why_tests_cant": "Infinitely many grammars; relates the printer and the parser for a grammar that describes printed grammars.", "anchors": ["src/grammar.rs:Display for Grammar", "src/production.rs:Display for Production", "src/expression.rs:Display for Expression", "src/term.rs:Display for Term", "src/parser/mod.rs:GrammarParser"]}
{"id": "C89", "title": "Debug output of input ranges shows the input", "statement": "In every state of the parser, the debug output of the range of every traversal is InputRange(\"a|b|c\") where abc is the input and the range covers exactly b. No text is lost by the fallbacks to the empty string.", "quantifier": "all grammars, starting terms, inputs (any Unicode text), states of the parser and traversals", "why_tests_cant": "One unit test on an ASCII text; the fallbacks only matter for positions inside characters, whose absence is an invariant of all states.", "anchors": ["src/earley/input_range.rs:Debug for InputRange", "src/earley/input_range.rs:advance_by"]}
{"id": "C90", "title": "The order of terms and expressions", "statement": "The derived order of terms puts terminals before nonterminals and otherwise compares the texts by code points; that of expressions is lexicographic in the terms. Both are linear orders that agree with equality.", "quantifier": "all terms and expressions with arbitrary Unicode texts", "why_tests_cant": "Strings are compared by their UTF-8 bytes; that this is the order of code points for all characters, also of different lengths, is an arithmetical fact about all pairs.", "anchors": ["src/term.rs:Term", "src/expression.rs:Expression"]}
{"id": "C91", "title": "Coverage-guided generation uses every alternative of the rules that cannot be avoided, and only of those is it sure", "statement": "Take a new CoverageGuided and generate any number of texts from one grammar with it, for any random source and any callback that leaves the strategy alone. If expanding the start always expands the nonterminal x, whatever alternatives are chosen, and at least as many texts were returned as x has alternatives, then every alternative of x was chosen. For a nonterminal that can be avoided this is not so: for <s> ::= <a> | 'x', <a> ::= 'y' | 'z' and a random source that always picks the last possibility, no number of calls generates y. And because coverage is remembered by memory address, a production moved by remove_production inherits the coverage of the one it replaces: an alternative that was never used is then never preferred, and with the same random source never generated.", "quantifier": "all grammars, random sources, callbacks, numbers of calls, nesting depths; the two negative parts: all numbers of calls", "why_tests_cant": "A test generates a few hundred texts with one seed and looks at what came up; the guarantee is about every seed and every number of calls, and the gaps show only for certain random sources or after editing the grammar.", "anchors": ["src/generation.rs:140-208", "src/grammar.rs:505-560", "src/grammar.rs:633-672", "src/grammar.rs:347-352"]}
{"id": "C92", "title": "terminates() makes at most one pass per productive left-hand side, which can mean cubic work", "statement": "The while loop of Grammar::terminates goes through the productions at most as often as there are different left-hand sides from which a text can be derived, hence at most once per production, and per pass compares each left-hand side and each nonterminal of a right-hand side with at most as many terms as there are productions. Both are attained: for a chain of n one-term rules listed highest first, behind a start that derives nothing, there are exactly n passes and n(n+1)(n+2)/2 + n comparisons. The same rules listed lowest first take two passes.", "quantifier": "all grammars; all lengths of the chain", "why_tests_cant": "The result is right in either case, only the work differs; a test on small grammars does not see the growth, and a benchmark sees only the orders of rules it happens to contain.", "anchors": ["src/grammar.rs:722-772", "src/production.rs:85-93", "src/expression.rs:78-98"]}
{"id": "C93", "title": "Serialized grammars are read back exactly, from any JSON text of their value, and without checks", "statement": "With the serde feature (on by default), serde_json::from_str after serde_json::to_string or to_string_pretty gives back the same term, expression, production or grammar, for all of them, including those whose textual form is not read back. A JSON text is read as a grammar exactly when its value has the field productions once (other members are ignored) with an array of values that stand for productions, and so on down to terms, or has arrays of the fields in place of the objects; the order of members, white space and the choice of escapes do not matter. No checks are made: grammars that no grammar text yields are read from JSON.", "quantifier": "all terms, expressions, productions, grammars; all JSON values; all texts (exactly those that are JSON by RFC 8259 are read)", "why_tests_cant": "Escaping matters for each of the control characters, quotes and backslashes in names and terminals, and for surrogate pairs on reading; the layouts of a JSON text are infinitely many.", "anchors": ["src/term.rs:21-28", "src/expression.rs:14-18", "src/production.rs:17-23", "src/grammar.rs:312-316"]}
{"id": "C94", "title": "The round-trip and meta-grammar property tests pass for everything their generators can produce", "statement": "The four to_string_and_back tests pass for every term, expression, production and grammar that their Arbitrary instances can return, with no bound on sizes; the generator of terms returns exactly the terms for which the test passes. Both fixtures for the grammar of grammars are read as the same grammar, and every text generate_seeded returns for it is accepted.", "quantifier": "all values in the range of the generators; all random sources; all amounts of fuel", "why_tests_cant": "quickcheck draws 100 to 1000 values of bounded size", "anchors": ["src/term.rs:105-138", "src/expression.rs:200-228", "src/production.rs:179-208", "src/grammar.rs:916-946", "tests/grammar.rs:48-110"]}
{"id": "C95", "title": "The property tests of the parser pass for everything their generators can produce", "statement": "For every grammar the generator of grammars with undefined nonterminals can return, building the parser is a validation error that mentions, in angle brackets, a name that is used and not declared. For every layered grammar (each nonterminal refers only to earlier ones): the parser is built, parsing any text from any start ends, shuffling the productions keeps the trees and how often they come, reusing the parser gives the same trees, terminates() is true and generation succeeds for every random source. Inserting nonterminals that derive the empty string anywhere keeps every sentence; in particular the test with nested empty rules passes. The trees these tests compare never have an inner node other than the root.", "quantifier": "all grammars in the range of the generators; all permutations; all orders of the hash set; all sentences; all random sources", "why_tests_cant": "quickcheck draws 50 to 1000 grammars with random strings and one random shuffle and sentence each", "anchors": ["src/parser/mod.rs:335-655", "src/earley/mod.rs:324-378"]}
{"id": "C96", "title": "The property tests on generated sentences: exactly when they pass", "statement": "For the three grammars of tests/parse_input.rs and every sentence that generation can return: cutting it after 50 bytes does not panic; the test that the terminals of the trees equal the input passes exactly when the sentence was not cut; the test that the deprecated functions and the parser agree always passes. So the first test is wrong: there are sentences for which it fails.", "quantifier": "all sentences of the three grammars; all entry points of generation; all orders of the hash set", "why_tests_cant": "the failing sentences have 52 or more bytes and are drawn with a probability of about 2^-25", "anchors": ["tests/parse_input.rs:760-870"]}
{"id": "C97", "title": "The property tests of Mermaid texts pass for all labels and all trees", "statement": "The decoder of the tests gives every label back from its escaped form. For every tree with nonterminals as inner nodes, hence for every tree returned by parsing from a nonterminal, every line of the Mermaid text with an arrow has exactly four quotes, there are as many such lines as edges in the tree, and no label contains a raw special character, as the tests' own functions count and split. For every content without single quotes, the grammar with a single node is read, the parser is built, and the content has exactly one tree.", "quantifier": "all strings; all trees; all parses", "why_tests_cant": "quickcheck draws 500 strings of at most 20 characters, and trees with a single edge only", "anchors": ["tests/parse_input.rs:872-1040", "src/grammar.rs:192-279"]}
{"id": "C98", "title": "Building and editing grammars in place", "statement": "A sum of terms and expressions derives the texts of its operands one after the other, except Term + Expression, which derives them in the opposite order. Changing an item through a mutable iterator changes that item and nothing else. Adding an alternative to a production in place keeps the starting term, every derivation and every parse tree, which any parser of the new grammar returns; taking it out restores the grammar, or one with the same parts if an equal one was there. Taking an alternative out removes exactly the derivations that use it.", "quantifier": "all grammars, positions, alternatives, sums and inputs", "why_tests_cant": "the tests check single sums and one edit each, and none looks at derivations", "anchors": ["src/expression.rs:22-76", "src/expression.rs:153-200", "src/production.rs:27-80", "src/grammar.rs:320-370", "src/term.rs:59-85"]}
{"id": "C99", "title": "What the cargo feature ABNF changes", "statement": "Without the feature, exactly those texts are read that are read with it and begin with `<` (after layout), as the same grammars. On such texts the feature changes nothing, error messages included. On all other texts reading fails without it, with an error pointing at the first character behind layout.", "quantifier": "all texts; all alphabetic tables", "why_tests_cant": "the test suite is run with one set of features at a time", "anchors": ["src/grammar.rs:788-815"]}
{"id": "C100", "title": "Strategy values: reused buffers never matter; constructors", "statement": "Generation with a strategy value, whatever earlier calls left in its reused buffers, gives the result and the state of the random source and parameters of the strategy without buffers; hence all theorems on strategies hold for the values. The constructors without a seed of CoverageGuided and Weighted make the value that from_seed makes from 32 zero bytes, those of RandomWalk and DepthBounded from bytes of the system.", "quantifier": "all grammars, callbacks, buffer contents, parameters, random sources", "why_tests_cant": "a stale buffer would show only for particular sequences of productions and random numbers", "anchors": ["src/generation.rs:26-300"]}
{"id": "C101", "title": "One coverage-guided strategy for several grammars", "statement": "What a coverage-guided strategy generates from a grammar only depends on its random source and on what it remembers about the addresses of this grammar's productions, not on the addresses themselves; it leaves what it knows about grammars elsewhere in memory unchanged, so used with a grammar elsewhere it acts like a new one. If a grammar is dropped and another takes its memory, alternatives of the new one that were never used count as used.", "quantifier": "all grammars, placements in memory, callbacks, random sources, remembered sets", "why_tests_cant": "addresses are up to the allocator", "anchors": ["src/generation.rs:144-208"]}
{"id": "C102", "title": "When random generation ends with probability 1", "statement": "With an ideal random source, the probability that a call of generate_seeded_with_strategy returns a sentence (RandomWalk, DepthBounded, Weighted without overflow) is the least non-negative solution of the equations that give, for each nonterminal, the average over its alternatives of the product of the probabilities of their nonterminals. It is 1 if every nonterminal that can be met can be expanded to a sentence and expanding one does not increase the total weight on average, for some positive weights (rank by rank if nonterminals are ranked). It is less than 1 if the weight grows on average by a factor above 1. For one recursive nonterminal it is 1 exactly if there are at most as many occurrences of it as alternatives. In particular the benchmark grammar <product> ::= <number> | <op> <product> <product> is a borderline case that ends with probability 1.", "quantifier": "for all grammars whose start derives something, all weights and ranks, all numbers of nested expansions", "why_tests_cant": "A test runs the generator finitely often; a probability of 1, or a positive probability of never returning, is a statement about infinitely many runs of unbounded depth.", "anchors": ["src/grammar.rs:492-575", "src/grammar.rs:633-690", "src/generation.rs:1-137", "src/generation.rs:210-290", "benches/divan.rs:79-92"]}
{"id": "C103", "title": "Expected number of expansions and length of generated sentences", "statement": "With an ideal random source, if numbers v satisfy that the average cost of the alternatives (a per expansion, b per character, v y per nonterminal y) is at most v x for each nonterminal x, then generation with RandomWalk or Weighted costs at most v of the starting nonterminal on average; if they satisfy it with equality and the weight shrinks, the expected cost is v of the starting nonterminal in the limit (two letters for the DNA grammar of the documentation). If generation ends with probability 1 but the weight does not shrink on average, the expected number of expansions is infinite: this is the case for the grammar of the benchmark parse_polish_calculator.", "quantifier": "for all grammars whose start derives something, all costs a, b >= 0, all numbers of nested expansions", "why_tests_cant": "Averages over finitely many sentences are always finite; that the expected value is infinite or exactly some number concerns all runs with their probabilities.", "anchors": ["src/grammar.rs:492-575", "src/grammar.rs:633-690", "src/generation.rs:1-137", "src/generation.rs:210-290", "benches/divan.rs:79-92", "src/parser/mod.rs:19-20"]}
{"id": "C104", "title": "What a callback does to the probabilities of generated sentences", "statement": "With an ideal random source and a callback that looks only at its arguments, generation with RandomWalk, DepthBounded or Weighted (without overflow) repeats each rejected expansion independently: for each nonterminal, if one attempt gives an accepted text with P with probability A and a rejected text with probability R, the nonterminal gives a text with P with probability A / (1 - R), and never if A is 0. If the callback looks at whole sentences only, and the start does not lead to itself, the sentences are distributed as by repeating generation without callback until the sentence is good; if generation without callback returns a sentence with probability 1 and a good one with positive probability, then generation with the callback returns a good one with probability 1. Rejecting expansions of inner nonterminals gives other probabilities than rejecting the sentences that contain them.", "quantifier": "for all grammars whose start derives something, all callbacks without state, all events, all numbers of nested expansions and repetitions", "why_tests_cant": "Rejected attempts are repeated without bound; probabilities in the limit of infinitely many repetitions and of unbounded depth are not observable in finitely many runs.", "anchors": ["src/grammar.rs:505-575", "src/grammar.rs:602-627", "src/grammar.rs:640-672"]}
{"id": "C105", "title": "All the work of a parse, the inner loops included", "statement": "Draining a parse iterator takes, for a grammar without repeated alternatives: one round of the loop for every viable partial derivation and one more; one test whether the input goes on with a terminal for every viable partial derivation that waits for a terminal; one call of match_term for every viable partial derivation with something matched; one call of predict for every viable partial derivation that waits for a nonterminal and every alternative of that nonterminal; and for reading each tree 1 + (k + 1)(k + 2) / 2 look-ups for every inner node with k children. In any grammar there are fewer calls of match_term and fewer tests than rounds, and at most A calls of predict per round if no nonterminal has more than A alternatives. For unambiguous grammars in which every nonterminal used derives something the sum of rounds, predictions, matches and tests is at most quadratic in the length of the input. Reading a node is quadratic in the number of its children.", "quantifier": "for all grammars, inputs and iterators, whatever the number of trees", "why_tests_cant": "The counts are compared with the cardinality of sets of partial derivations for every grammar and every input; runs only give the counts of single inputs.", "anchors": ["src/earley/mod.rs:84-177", "src/earley/traversal.rs:77-139"]}
{"id": "C106", "title": "Parsing does not look ahead, and more text or more alternatives mean more work", "statement": "What the parser considers up to a point of the text does not depend on the text after it: the partial derivations viable for a text w are exactly those viable for w followed by any v that end within w. Hence, if going through all trees of a text ends, then it ends for each beginning of the text, with at most as many rounds, predictions, derived states and terminal tests, and the exact number of extra rounds is the number of partial derivations that reach into the rest. Likewise, if it ends with a grammar, then it ends with each grammar whose alternatives are among those of the first, with at most as much work, and every tree found with the smaller grammar is found with the larger.", "quantifier": "all grammars (counts: without repeated alternatives), starting nonterminals, texts and continuations of them", "why_tests_cant": "a test compares two runs; that no grammar and no pair of a text and its continuation makes the shorter one more expensive is about all of them", "anchors": ["src/earley/mod.rs: earley, predict, scan, complete", "src/earley/input_range.rs: next, advance_by"]}
{"id": "C107", "title": "The probability of a generated sentence is the sum of the probabilities of its parse trees", "statement": "With an ideal random source, and a grammar in which every nonterminal used has a production, the probability that generation returns the sentence w within n nested expansions is the sum, over the trees that the parser finds for w and that are nested at most n deep, of the product over the inner nodes of the share that the alternative used has among those that the strategy offers there (random walk, depth-bounded and weighted). For an unambiguous grammar it is that product for the one tree. If alternatives are repeated, the parser returns a tree once per way to read it, and the sum over the returned trees with their repetitions of the product of 1/k (k alternatives listed for the nonterminal) is the probability for the random walk. The trees returned so far always give a lower bound. If a nonterminal has no production, its name can be generated although no tree exists.", "quantifier": "all grammars, texts and bounds on the nesting, and the three strategies that draw at random", "why_tests_cant": "it equates a probability with a sum over all parse trees, found by a different part of the crate", "anchors": ["src/grammar.rs: traverse, eval_terminal, generate_seeded_with_strategy", "src/generation.rs: RandomWalk, DepthBounded, Weighted", "src/earley/mod.rs: ParseTreeIter"]}
{"id": "C108", "title": "Between ABNF and BNF: which grammars survive printing, and which can be written in ABNF", "statement": "For every grammar g read from a text in either format: Grammar::from_str(&g.to_string()) is Ok(g) exactly when no nonterminal name of the text contains '>' (an ABNF name may; the printed form is then rejected or silently read as another grammar, e.g. `a = b>|<c`). A grammar is denoted by some ABNF text without groups and optionals exactly when it has a production, every production a nonterminal on the left and an alternative, every alternative a term, no terminal contains both quotes, and every name begins with a letter and contains no whitespace, ')' or ']'; then the lines `name = term term / term` are such a text and from_str reads them as g. Names generated for groups are never writable in ABNF.", "quantifier": "all texts in both formats, all grammars, all tables of alphabetic characters that are right on ASCII and on whitespace", "why_tests_cant": "all names and literals, all texts with any layout; the misreading only shows for names with '>'", "anchors": ["src/grammar.rs: Display, FromStr, parse_from", "src/term.rs: Display", "src/parsers/augmented.rs: ABNF", "src/parsers/mod.rs: nonterminal, normalize_parsed_grammar"]}
{"id": "C109", "title": "How the generation strategies relate to one another", "statement": "With the same random source and callback, DepthBounded with max_depth m and RandomWalk do exactly the same as long as at most m nested expansions are allowed, and a sentence the random walk returns within m nested expansions is what the depth-bounded strategy returns from the same seed. With an ideal random source: with more nested expansions the probability of any event under DepthBounded(m) differs from that of the random walk with m nested expansions by at most the probability that the latter does not end; a smaller max_depth, and having one at all, never makes ending within n nested expansions less likely; Weighted depends only on the ratio of the weights, with equal weights its probabilities are those of RandomWalk, and a larger recursive weight or a smaller other weight never makes ending within n nested expansions more likely. For `<s> ::= 'x' | <s> <s> <s>` every depth bound ends with probability 1 and the random walk does not.", "quantifier": "all grammars for which generation starts, random sources, callbacks, bounds, weights (whose sums fit into u32), numbers of nested expansions, events", "why_tests_cant": "relations between probabilities of all events for all grammars and all weights", "anchors": ["src/generation.rs: RandomWalk, DepthBounded, Weighted", "src/grammar.rs: traverse_with_strategy, generate_seeded_with_strategy"]}
{"id": "C110", "title": "How deep parsing and generating nest", "statement": "Reading the tree that the iterator returns takes exactly as many calls of parse_tree nested in one another as the tree has expansions nested in one another: with that many the tree comes out, with fewer nothing does. A generation that returns a sentence likewise nests exactly as many calls of traverse_with_strategy as some derivation tree of the sentence has nested expansions. In a grammar in which no nonterminal derives itself this is at most the number of names with a production times one more than the number of characters of the input, so both recursions are bounded linearly in the text; a tree with d nested expansions spells at most T * B^d characters (B terms per alternative, T characters per terminal). For `<s> ::= <s> 'x' | 'x'` every tree of an input is as deep as the input is long, and for `<s> ::= <s> | 'x'` the input `x` has trees of every depth.", "quantifier": "all grammars, inputs, iterators, trees, faithful strategies, random states, numbers of nested calls", "why_tests_cant": "tests run into a stack overflow for some input or they do not; how the depth of the recursion grows with grammar and input is a statement about all of them", "anchors": ["src/earley/mod.rs: parse_tree", "src/grammar.rs: traverse_with_strategy, eval_terms"]}
{"id": "C111", "title": "The probability of an event is the sum over all derivation trees", "statement": "With an ideal random source and without a bound on the nesting, the probability that RandomWalk, DepthBounded or Weighted returns a sentence with a given property is the sum, over all derivation trees of such sentences (of which there may be infinitely many), of the products of the shares of the alternatives used. It is the limit of the probabilities with bounded nesting. The probabilities of the single sentences add up to the probability of returning a sentence, which is 1 if and only if the probabilities of all trees add up to 1. If the parser exhausts the trees of a sentence, its probability is the sum over the trees returned; for `<s> ::= <s> | 'x'` the sentence `x` has infinitely many trees and their probabilities add up to 1.", "quantifier": "all grammars in which generation starts and all names are declared, properties of sentences, bounds, weights whose sums fit into u32", "why_tests_cant": "infinite sums of probabilities; no number of samples establishes a probability", "anchors": ["src/grammar.rs: generate_seeded_with_strategy, traverse_with_strategy", "src/generation.rs: RandomWalk, DepthBounded, Weighted", "src/earley/mod.rs: ParseTreeIter::next"]}
{"id": "C112", "title": "Machine integers never overflow", "statement": "Wherever the code adds in `usize` (positions in the input, the counter of generated names, the depth in the drawing of a tree, the node numbers of the Mermaid text, the depth of generation), the sum fits whenever the data do: if the length of the input, the length of the grammar's text, the nesting or number of nodes of the tree, or the number of nested calls is at most usize::MAX, the code with overflow checks behaves exactly like the unbounded model. The bounds are needed: drawing a tree overflows exactly if its nesting, the Mermaid text exactly if its number of nodes exceeds the maximum, reading a grammar's text overflows exactly if one of the names generated for its brackets has a number at or above the maximum, the checked parser returns a tree only if the length of the input is within the maximum, and the strategies are handed no larger depth.", "quantifier": "all values of usize::MAX, grammars, inputs, states of an iterator, texts, trees, strategies and callbacks", "why_tests_cant": "an overflow of a 64-bit integer needs data far larger than a test can hold; on smaller machines the limit differs", "anchors": ["src/earley/input_range.rs: next, after, advance_by", "src/earley/mod.rs: ParseTreeIter::next, earley, CompletionMap", "src/earley/traversal.rs: TraversalTree::match_term, predict", "src/parsers/mod.rs: fresh_anon_name", "src/grammar.rs: ParseTree::fmt, MermaidParseTree, traverse_with_strategy"]}
{"id": "C113", "title": "The grammars of the parser tests, for every input", "statement": "The tests of tests/parse_input.rs try each grammar on one or a few texts. For every input: reading the texts of the tests gives the stated grammars; iterating ends except for the three grammars with a cycle of unit steps; the DNA grammars return one tree exactly for the non-empty texts over A, C, G, T, the letter grammars with an empty alternative likewise; `math` and the Polish calculator of the benchmark return at most one tree; `n + 1` times AND has Fibonacci(n + 1) trees and nothing else has one; `ambiguous` and `empty_ambiguous` return their two trees in order for the one text they accept; the remaining small grammars return their tree for exactly the text of the test. The endless grammars return the trees with 0, 1, 2, … detours in this order, and on inputs the tests do not try (\"z\" followed by anything; any non-empty text) the first call of `next()` never returns.", "quantifier": "all inputs (and all ways to open an iterator on them), all numbers of trees drawn", "why_tests_cant": "each test has one input per grammar; the answer for all other inputs, that the iteration stops, and that it hangs, cannot be seen by running on samples", "anchors": ["tests/parse_input.rs: all tests that parse", "benches/divan.rs: parse_polish_calculator, parse_infinite_nullable_grammar"]}
{"id": "C114", "title": "The work of a parse is the ambiguity of the grammar, up to a quadratic factor", "statement": "Count as ways to read a text as a term its derivation trees, each as often as listed copies of its alternatives can be chosen. In a grammar in which every nonterminal used derives something, every parse ends, after at most places(g) * (L+1)(L+2)/2 * a(L+c) + 1 rounds, where L is the length of the input, a(n) bounds the ways to read any text of at most n characters as any term, and c depends only on the grammar. In any grammar, draining takes more rounds than there are ways to read any part of the input as a term expected where the part begins. So all parses take polynomially many rounds exactly if the number of ways is polynomially bounded, which is not so for <s> ::= <s> <s> | 'a'.", "quantifier": "all grammars (also with repeated alternatives), starting terms, inputs, bounds on the ambiguity", "why_tests_cant": "a bound on the running time for all inputs and grammars, and an equivalence between two growth rates", "anchors": ["src/earley/mod.rs: earley, ParseTreeIter::next", "src/earley/traversal.rs: TraversalTree"]}
{"id": "C115", "title": "The JSON texts of grammars, character by character", "statement": "serde_json::to_string of a term, expression, production or grammar is exactly the text given by the specification: objects with the fields in the order of declaration, arrays in brackets, commas between, strings in quotes with quotes, backslashes and control characters escaped, nothing else. to_string_pretty gives the lines of the specification, each indented by two blanks per open bracket, empty arrays on one line. No JSON text with the same value has fewer characters than the compact one.", "quantifier": "all terms, expressions, productions, grammars; all JSON texts", "why_tests_cant": "an exact text for every grammar, including all characters that need escapes, and a minimum over all texts", "anchors": ["src/grammar.rs: derive(Serialize) for Grammar", "src/production.rs: derive(Serialize)", "src/expression.rs: derive(Serialize)", "src/term.rs: derive(Serialize)"]}
{"id": "C116", "title": "The benchmark with postal addresses: generating ends with probability 1, going through the trees always ends, but the expected number of trees is infinite", "statement": "The benchmark text postal_address.terminated.input.bnf denotes the grammar written out in the specification. Generating from it ends with probability 1, with the random walk, every depth bound and the weights 100 and 1. For every input and starting term, going through all parse trees ends after exactly the parse trees, each once. An address whose name consists of n + 1 letters (any letters, n at least 1, any street address and zip part) has at least 2^(n-1) trees. For every K the expected number of trees of an address generated by the random walk exceeds K as soon as enough nested expansions are allowed: the expected work of the benchmarks parse_postal_input and parse_postal_with_parser is infinite. In general the expected value of a number computed from the generated sentence is the sum over parse trees of probability times number.", "quantifier": "all inputs, all starting terms; all names, letters, street addresses and zip parts; all K, all nesting limits from some point on, all random tapes; for the general part all grammars without undeclared nonterminals", "why_tests_cant": "probabilities over infinite tapes, an infinite expectation, and counts of trees for names of every length", "anchors": ["benches/divan.rs: parse_postal, parse_postal_input, parse_postal_with_parser, generation_strategies", "tests/fixtures/postal_address.terminated.input.bnf", "src/grammar.rs: generate_seeded_with_strategy", "src/earley/mod.rs: ParseTreeIter"]}
{"id": "C117", "title": "Coverage-guided generation: the probabilities of sentences, and when it ends with probability 1", "statement": "With an ideal random source, the probability that generation with the coverage-guided strategy (which remembers the alternatives it has used, also from earlier calls) returns a sentence with any given property within n nested expansions is that of the process which chooses uniformly among the unused alternatives of the expanded production, or among all of them if none is unused, and then marks the chosen one as used. Once all alternatives of the grammar are used the probabilities are those of the random walk. Generation ends with probability 1 whatever the strategy has seen, exactly if the random walk ends with probability 1; it does for the two benchmark grammars. For <s> ::= 'x' | <s> <s> <s> a new strategy ends with probability at most 0.7 although terminates() is true.", "quantifier": "all grammars that pass the check of generate, all starting nonterminals, all memories of the strategy, all nesting limits, all properties of sentences, all random tapes", "why_tests_cant": "probabilities over infinite tapes with a memory that makes choices depend on all previous ones", "anchors": ["src/generation.rs: CoverageGuided::choose, mark, unused alternatives", "src/grammar.rs: generate_seeded_with_strategy, traverse", "benches/divan.rs: generation_strategies"]}
{"id": "C118", "title": "What {:?} and {:#?} print determines the value, and messages of parse errors are one line", "statement": "The derived Debug implementations of grammars and parse trees print the texts of the specification, for {:?} (one line) and {:#?} (one line per part, indented by four spaces per level, a comma after each part). Both texts determine the grammar or parse tree. {:?} of a grammar contains printable ASCII and characters that core prints as they are only, and no line feed. The message of a rejected grammar text quotes the text that could not be read with the escapes of Debug, has no line feed, and texts with the same message have the same fault.", "quantifier": "all grammars, all parse trees, all rejected texts in both formats, whatever characters above ASCII are printed as they are", "why_tests_cant": "injectivity over all values, including those with quotes, brackets, backslashes and control characters in their strings", "anchors": ["src/grammar.rs: derive(Debug) of Grammar, ParseTree, ParseTreeNode", "src/term.rs, src/expression.rs, src/production.rs: derive(Debug)", "src/error.rs: From<nom::Err<..>>", "examples/create_grammar.rs"]}
{"id": "C119", "title": "Grammars can be combined: choice, sequence and repetition", "statement": "Put a rule for a new nonterminal in front of the productions of two grammars neither of which defines a term occurring in the other. Each of the two then parses as before (same trees in the same order, same end, same number of rounds). With the rule <s> ::= <a> | <b> the trees are those of both grammars under a new root, as often as before, and going through them ends exactly when it ends for both. With <s> ::= <a> <b> the trees are all pairs of trees for the two parts of the input cut anywhere, as often as the product says, and going through them ends exactly when it ends for <a> on the input and for <b> on what is left after each beginning parsed from <a>. With <s> ::= '' | <a> <s> the trees are all chains of trees for parts of the input, and going through them ends exactly when <a> does not parse the empty text and ends on what is left after any number of parts. The accepted texts are the union, the concatenation and the Kleene star. build_parser accepts choice and sequence exactly when it accepts both grammars and <a> and <b> have alternatives.", "quantifier": "all pairs of grammars without shared names, new nonterminals, inputs, numbers of calls", "why_tests_cant": "A test checks particular grammars and inputs; independence of arbitrary parts, the exact condition for ending and exact multiplicities concern all of them.", "anchors": ["src/grammar.rs:329", "src/grammar.rs:342", "src/earley/mod.rs:1", "src/parser/mod.rs:1"]}
{"id": "C120", "title": "How long printed parse trees are", "statement": "The text of a parse tree has exactly 4 characters for each step from the root to each node, each label twice (once on its own line, once on the line of its parent), 4 for each production and 2 for each node, less the label of the root and 1. It is therefore at most 4 columns per node and level plus what the labels need, never more than quadratic in the number of nodes, and at least twice the square of the height: deep trees print quadratically. The Mermaid text of the same tree has at most 13 + (nodes - 1)(2 k + 8 L + 14) characters if there are at most 10^k nodes with names of at most L characters, and at least 13 + 16 (nodes - 1). The only tree of n bases with the right-recursive DNA grammar of the tests has 3n nodes, prints in exactly 6n^2 + 48n - 6 characters, and needs at most 13 + 3n(2k + 46) characters in Mermaid.", "quantifier": "all parse trees, all DNA sequences", "why_tests_cant": "Snapshots fix the output for a few small trees; the growth for arbitrarily deep trees is a statement about all of them.", "anchors": ["src/grammar.rs:75", "src/grammar.rs:200", "src/grammar.rs:220", "tests/parse_input.rs:58"]}
{"id": "C121", "title": "Several calls of generation: independence, waiting times, and how long it takes to see every alternative", "statement": "With an ideal random source, successive calls of generation with RandomWalk, DepthBounded or Weighted (without overflow) are independent: the probability that the first returns a sentence with P1, the second one with P2 and so on is the product of the probabilities. If one call returns a sentence without P with probability q, k calls all do with probability q^k, and the expected number of calls until one does not is 1/(1-q). For a rule with n different sentences the random walk has returned all of them after n calls with probability n!/n^n only, and needs n(1 + 1/2 + ... + 1/n) calls on average; CoverageGuided needs exactly n calls, and returns no sentence twice in them, whatever the random source does.", "quantifier": "all grammars, predicates, numbers of calls, rules with any number of sentences, random sources (for CoverageGuided)", "why_tests_cant": "Independence, waiting times and expected values are about infinitely many runs; a test sees some sentences for some seeds.", "anchors": ["src/grammar.rs:644", "src/generation.rs:44", "src/generation.rs:142"]}
{"id": "C122", "title": "Formats defined by a user of the crate", "statement": "`Format` is a public trait, and `Grammar::parse_from::<F>` reads texts in any implementation of it. For every choice of delimiters, separators and start character, reading a text ends with a grammar or a parse error, and an accepted grammar is the normal form of a reading of the text in the syntax of that format, is well formed, and is read back from its printed form exactly when none of its names contains `>`. If the opening delimiter, the alternative separator and the first character of the production separator are neither layout nor quotes nor brackets, and can be told apart from each other and from the beginning of a name, then texts have at most one reading, they are accepted exactly when they have one, `production_start_char` has no effect, and every grammar with expressible names has a text. The fast parser never changes the result unless alternatives are separated by an opening bracket. A format whose production separator is empty or begins with layout accepts nothing; one whose alternative separator is layout never gives a production two alternatives.", "quantifier": "all formats, all texts, all grammars", "why_tests_cant": "The test suite knows the two formats of the crate; the trait has infinitely many implementations, and the claim is about all texts in each of them.", "anchors": ["src/parsers/mod.rs:69-79", "src/parsers/mod.rs:211-262", "src/grammar.rs:333-339", "src/lib.rs:30"]}
{"id": "C123", "title": "Texts one after the other, and the optional `;` at the end of a production", "statement": "In every well chosen format, and so in both formats of the crate: if two texts are accepted, so is the first followed by a line break and the second, and the result says both; if neither text contains `(` or `[`, its productions are those of the first followed by those of the second, and likewise for any number of texts; with brackets the generated names are numbered on, but every name of the first text still matches the same inputs if the second text declares none of the names of the first. Blanks and a comment at the end of a line do not matter. The README says that the parser allows an optional `;` to indicate the end of a production: an accepted BNF text followed by `;` and anything else on that line gives the same grammar, so also everything after the `;` on the line is lost without an error, including further productions. In ABNF this holds after a space, but directly after a name the `;` belongs to the name: `a = b;` refers to a nonterminal `b;`.", "quantifier": "all formats that are well chosen, all accepted texts, all comments, any number of texts", "why_tests_cant": "Tests join particular texts; the claim is about every pair of accepted texts and everything that can be written after a `;`.", "anchors": ["README.md:24-25", "src/parsers/mod.rs:133-151", "src/parsers/mod.rs:211-262", "src/grammar.rs:334-339", "src/grammar.rs:792-805"]}
{"id": "C124", "title": "Long texts can be pumped, and what no grammar can describe", "statement": "For every grammar let N be the largest number of characters and nonterminals in an alternative (at least 1), to the power of the number of productions plus one. If the parser accepts a text of more than N characters, then two parts of it, not both empty and close together, can be repeated equally often or left out, and every text that results is accepted. So if anything is accepted, something of at most N characters is; arbitrarily long texts, or infinitely many, are accepted exactly if one of more than N and at most 2N characters is; and no grammar built with the crate, however large, can make the parser accept exactly the texts of equally many a, b and c in this order, or exactly the texts whose length is a square. What two grammars both accept is in general not what any grammar accepts.", "quantifier": "all grammars, all starting terms, all texts, all numbers of repetitions", "why_tests_cant": "Claims about all grammars at once and about arbitrarily long inputs; that something cannot be described by any grammar can only be proved.", "anchors": ["src/grammar.rs:427-429", "src/parser/grammar.rs:40-116", "src/earley/mod.rs:1-170"]}
{"id": "C125", "title": "Nothing in the input is skipped; what the README's groups and optionals match", "statement": "Every character of an accepted input is a character of some terminal of the grammar: blanks and line breaks in the input are never skipped, and an input with a character that is in no terminal has no parse tree. In every text of a supported format, `<s> ::= <a> | <b> <c>` matches what a matches, or b and then c; `<s> ::= (<a> | <b>) <c>` matches a or b, and then c; `<word> ::= <letter> [<digit>]` matches a letter, or a letter and then a digit, and so does the README's long form with `<opt-digit> ::= <digit> | \"\"`. With `a`, `b`, `c` for the three names the first matches exactly \"a\" and \"bc\" and the second exactly \"ac\" and \"bc\"; the inputs \"b c\" and \"a c\" that the README quotes have no tree in either.", "quantifier": "all grammars, all inputs, all starting terms; all grammar texts in which the names have the one production named", "why_tests_cant": "Tests parse particular inputs; that nothing is ever skipped, and that nothing else is matched, are claims about all inputs.", "anchors": ["README.md:44-84", "src/earley/mod.rs:1-170", "src/earley/input_range.rs:1-60", "src/parsers/mod.rs:297-345", "src/parsers/mod.rs:401-470"]}
{"id": "C126", "title": "Overwriting all terminals through the mutable iterators", "statement": "The loop of tests/iterate.rs over productions_iter_mut, rhs_iter_mut and terms_iter_mut that overwrites every terminal keeps left-hand sides, nonterminals and all positions. If terminals are overwritten by terminals, the parse trees of the new grammar are exactly those of the old one with other leaves, terminates() and build_parser() answer as before, and if the replacement is made character by character, exactly the replaced texts are matched. If they are overwritten by nonterminals that a second grammar behind the first one defines, exactly the texts are matched that come from a tree of the first by putting a text of the second at each leaf, provided the grammars do not share names; otherwise this can fail. In the test all terminals become Z, for every grammar, and what is matched then are the texts ZZ…Z with as many Zs as a tree of the old grammar has leaves.", "quantifier": "all grammars, all replacements, all starting terms, all inputs", "why_tests_cant": "The test looks at one grammar and does not parse with the result; the claims are about all grammars and all texts they match.", "anchors": ["tests/iterate.rs:62-105", "src/grammar.rs:365-367", "src/production.rs:63-65", "src/expression.rs:72-74"]}
{"id": "C127", "title": "What the printed form of a grammar with brackets shows", "statement": "The printed form of a grammar read from a BNF text has exactly one reading, and that has neither groups nor optionals. In both formats: a character that is neither punctuation nor part of generated names is printed exactly if it is in a name or terminal of the text, so the brackets of the text never show; every text with a group or an optional is printed with a generated name; and if no name or terminal of the text contains an underscore, one is printed exactly if there is a group or an optional. The assertions of the example in the documentation of Grammar hold, but not for every text: brackets in terminals are printed.", "quantifier": "all accepted texts in both formats, all characters", "why_tests_cant": "The example in the documentation checks one text; the claim is about every accepted text.", "anchors": ["src/grammar.rs:280-307", "src/grammar.rs:775-787", "src/parsers/mod.rs:401-492"]}
{"id": "C128", "title": "What printed errors tell", "statement": "Whatever the grammar, strategy and callback, checking a grammar fails only with ValidationError and one of two texts, and generating only with GenerateError and one of five; reading a text fails only with ParseError. Although Display of an error prints the text without the name of the variant, two errors returned by functions of the crate that print the same are equal. For errors made by hand that is false; the Debug texts, which are the name of the variant and the quoted text, determine every error and are one line. The printed message about an undefined name is not always one line: it repeats the name as it is.", "quantifier": "all errors returned by any of the functions that read, check or generate, for all texts, formats, grammars, strategies, callbacks and states; all error values for Debug", "why_tests_cant": "The tests of src/error.rs print one example of each variant; that no two calls can return different errors that look the same is about all calls.", "anchors": ["src/error.rs:7-44", "src/grammar.rs:376-401", "src/grammar.rs:505-560", "src/grammar.rs:644-672", "src/parser/mod.rs:42-52", "src/parser/grammar.rs:60-64"]}
{"id": "C129", "title": "Regular languages in linearly many rounds", "statement": "For every deterministic finite automaton whose words use finitely many letters there is a grammar text from which a parser can be built that parses every text completely in at most (3·k·m + 2·k + 2)·(n + 1) + 1 rounds of its loop, for k states, m letters and a text of n characters, with exactly one tree for the words of the automaton and none for other texts. Hence every regular language has a grammar that is parsed in linearly many rounds, although general unambiguous grammars take quadratically many (C66).", "quantifier": "all automata, alphabets and input texts", "why_tests_cant": "The benchmarks measure two fixed grammars; this is about a grammar for every regular language and about every input, accepted or not.", "anchors": ["src/earley/mod.rs: earley", "src/earley/traversal.rs", "src/earley/mod.rs:earley", "src/earley/mod.rs:ParseTreeIter", "src/parser/mod.rs:GrammarParser", "src/grammar.rs:FromStr for Grammar"]}
{"id": "C130", "title": "Grammars parsed in linearly many rounds", "statement": "If no text of a term begins another text of the same term and none has two trees, every input, accepted or not, is parsed completely in at most places\u00b7(n + 1) + 1 rounds, with at most one tree; the other loops of the parser add only a constant factor. The condition holds for every grammar whose alternatives begin with a terminal, different for the alternatives of each nonterminal, and for the grammar of the benchmarks parse_polish_calculator, parse_polish_with_parser, per_input_100 and reuse_parser_100, which take at most 34\u00b7(n + 1) + 1 rounds per text.", "quantifier": "all grammars with the condition, all starting terms and input texts", "why_tests_cant": "The benchmarks measure a hundred sentences of one grammar; the bound is for all grammars of the kind and for all texts.", "anchors": ["src/earley/mod.rs: earley", "src/earley/traversal.rs", "benches/divan.rs: parse_polish_calculator"]}
{"id": "C131", "title": "Changes to a grammar that keep what is accepted", "statement": "Adding or removing alternatives that can be obtained by rewriting with the others, removing alternatives that consist of the defined nonterminal itself, replacing a nonterminal in an alternative by its alternatives, and turning a repetition from left to right recursion keep the language of every nonterminal, and the parser's first answer for every text. They do not keep the work: a repetition of n letters takes linearly many rounds with the recursion on the left and quadratically many with it on the right; and removing a self-alternative can make a parser return that did not.", "quantifier": "all pairs of grammars related by such a change, all nonterminals to start with, all texts and all ways to open the iterators", "why_tests_cant": "It relates all grammars to all their rewritten forms over all texts; no test in the repository compares two forms of a grammar.", "anchors": ["src/earley/mod.rs: earley", "src/earley/traversal.rs", "src/grammar.rs: Grammar"]}
{"id": "C132", "title": "Linear trees and at most exponential work when nothing derives itself", "statement": "In every grammar in which no nonterminal derives itself (empty alternatives, left recursion, ambiguity and repeated alternatives are all allowed) the derivation trees of a text have a number of nodes at most linear in its length, there are at most exponentially many of them, and draining the iterator ends after a number of rounds, predictions, matches and comparisons at most exponential in the length; never does it hold more traversals than that. The exponential is reached: a text outside the language of <s> ::= <s> <s> | 'a' takes exponentially many rounds before the parser says so.", "quantifier": "all acyclic grammars, all starting terms, all texts, all ways to open the iterator", "why_tests_cant": "A bound for all lengths of text and all grammars; benchmarks measure a few lengths of a few grammars.", "anchors": ["src/earley/mod.rs: earley", "src/earley/traversal.rs", "src/earley/mod.rs: ParseTreeIter"]}
{"id": "C133", "title": "On bytes the code does what the model says about characters", "statement": "A Rust string is its UTF-8 bytes, and len, get, starts_with, find and == work on bytes, while the model has lists of characters. For every text: equal bytes are equal texts; reading code points from the bytes gives the characters; get(i..) and get(..i) give the texts after and before i if i lies between two characters and nothing otherwise; a text begins with, or contains, another one in bytes exactly where it does in characters; tag and take_until split at the same places; and every call of next() of a parser that reads only bytes has the same result and state as on characters. Inserting into the sorted vectors of the parser does not depend on which of the allowed results binary_search returns.", "quantifier": "all texts, patterns and offsets; all grammars, starting terms, inputs, ways to open the iterator, states reached by calls, and numbers of rounds; all sorted vectors and results of the search", "why_tests_cant": "The tests use a few non-ASCII characters; that no encoding of a character begins or occurs within that of another one is a fact about all pairs of characters.", "anchors": ["src/earley/input_range.rs: InputRange", "src/earley/mod.rs: earley, sorted_vec_insert", "src/earley/traversal.rs: match_term", "src/parsers/mod.rs"]}
{"id": "C134", "title": "The crate's generic helpers, for everything they can be used with", "statement": "xt_list_with_separator, for any two parsers, stateful ones included, returns exactly: the items up to the first one that no separator follows, with the rest of the input there; or the error of the first item that cannot be read, so a separator without an item after it is an error; or a failure of a separator other than Err::Error. It does not return exactly if there is an endless sequence of items and separators; it returns if each item with its separator makes progress, and unlike many1 it has no check for that. AppendOnlyVec: whatever calls follow, an id gives the item that it was handed out for, ids are handed out one after the other and never twice, push_with_id builds the item from its own id and never panics, and other ids give nothing.", "quantifier": "all item and separator parsers with any state, input and error types; all inputs; all vectors, all sequences of calls, all ids", "why_tests_cant": "Four tests use fixed parsers and one input each; stability of ids is about all later calls.", "anchors": ["src/parsers/nom_xt.rs: xt_list_with_separator", "src/append_vec.rs: AppendOnlyVec"]}
{"id": "C135", "title": "Changing parse trees in place", "statement": "Writing through rhs_iter_mut(), at any depth, changes exactly the node reached: nodes that lie neither above nor below it stay, changes at such places can be made in any order, and the text spelled changes only at its place. If an inner node of a derivation tree gets other children, the result is a derivation tree exactly if the node with its new children is one; then parsing the new text returns the changed tree. Nothing is checked: the change in the crate's own test leaves a tree that is no derivation. mermaid() of any tree, changed or not, panics exactly if the root or an inner node carries a terminal, as after assigning one to the public field lhs.", "quantifier": "all trees, paths, changes, grammars; for parsing: all trees returned by any iterator", "why_tests_cant": "The tests write to the first child of one tree and look only at that child.", "anchors": ["src/grammar.rs: ParseTree::rhs_iter, rhs_iter_mut, lhs", "src/grammar.rs: MermaidParseTree::fmt"]}
{"id": "C136", "title": "The nom-style parser grammar and the rest it leaves", "statement": "parsers::grammar reads productions as long as whole ones follow and returns the text from the first place on where none begins; what is left is nothing or begins like a production. It reads all of a text exactly if Grammar::parse_from accepts it, with the same grammar, and parse_from rejects a text exactly if grammar fails or leaves something. So a test that drops the rest, as the crate's do, does not show that the text is accepted.", "quantifier": "all texts, both formats", "why_tests_cant": "The tests of this function drop the rest of the text that it returns.", "anchors": ["src/parsers/mod.rs: grammar, parsed_grammar, grammar_complete", "src/parsers/bnf.rs: tests", "src/parsers/augmented.rs: tests"]}
