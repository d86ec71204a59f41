# Formal model of shnewto/bnf in Lean 4

`/repo` is the crate `bnf` (grammar text parsing, Earley parsing of inputs, sentence
generation, printing).  This directory contains a model of that code written by hand,
function by function, in Lean 4 and machine-checked proofs of the properties listed in
`properties.jsonl`.  `MANIFEST.json` maps every property to its theorems.

## Layout

* `lean/Verif/Model/*.lean` – the model.  Every definition cites the file and lines it models and
  says where it simplifies.
* `lean/Verif/Spec/*.lean` – small specifications that do not mention the model's helpers:
  derivation trees, productive terms, concrete syntax, meaning of extended grammars,
  compositional tree drawing, ...
* `lean/Verif/Proofs/*.lean` – helper lemmas.
* `lean/Verif/Props/*.lean` – the property theorems (named `C01_...`), each with concrete non-trivial
  `example`s meeting its hypotheses.
* `seeded/LOG.jsonl` – mutation experiments on the model.
* `lean/Verif/Conformance/*.lean` – tests of the model, not proofs: the 35 recorded outputs of `tests/snapshots` and 176 expected values of
  the crate's unit tests, checked by evaluation at each build.  The model reproduces all of them.

## Trusted base

* Lean 4.33.0's kernel and the axioms `propext`, `Classical.choice`, `Quot.sound`
  (the gate checks that no theorem uses anything else); no `sorry`, no `native_decide`,
  no own axioms.
* The correspondence between the Rust code and the model (by reading; cited line by line).
* Rust standard library and `nom` behave as documented.  Precisely:
  * `str` is a sequence of Unicode scalar values; a `String` is modelled as `List Char`
    and byte lengths/offsets are UTF-8 lengths (`Char.utf8Size`).  `str::starts_with`, `find`,
    `==` on `str` are modelled on characters; that this is what they do on the bytes is C133.
  * `char::is_whitespace` is the Unicode `White_Space` property, given as an explicit list.
    `char::is_alphabetic` is an arbitrary predicate (a parameter of the model).
  * `HashMap`/`HashSet` are finite maps/sets; where iteration order of a `HashSet` is observable
    (`NonterminalSets::undefined().next()`) the order is an arbitrary parameter.
  * `slice::binary_search` on a sorted slice finds the element or its insertion point (sortedness is proved as an invariant;
    by C83_append the element is always larger than all in the slice, so only the insertion at the end is used; C133_insert: any result that
    the documentation allows leads to the same vector).
  * `nom`'s complete combinators (`tag`, `char`, `take_till`, `take_until`, `alt`, `many1`, `not`,
    `peek`, `opt`, `eof`, `all_consuming`, `recognize`) are modelled after nom 8; only `Err::Error` occurs.
    Its payload (text position and `ErrorKind`) is modelled separately in `Model/Errors` and shown not to matter for the rest;
    used: a failing parser reports its own input and kind, `Error::append` keeps the inner error, `Error::or` the later one.
    `Debug` of `str` is a parameter there; `Model/DebugText` (C118) models it, with the table of the characters that are printed as they are as a parameter,
    together with the builders of `core::fmt` that `#[derive(Debug)]` calls.
  * `rand::Rng::random_range(0..n)` returns some number `< n` (panics for `n = 0`); the random source is an
    arbitrary state machine with that contract.  For C78, C79, C102–C104, C107, C109, C111, C116, C117 and C121 only, the source is ideal: each number below `n` has probability
    `1/n`, independently of earlier draws (`Spec/Chance`); how well `StdRng` approximates this is not modelled.
  * `serde`'s derived code and `serde_json` behave as documented (C93): a newtype variant is an object with one member, a struct an object with its
    fields or a sequence of them, unknown members are ignored, missing and repeated fields are errors.  Only whether reading
    succeeds is modelled, not the text of errors; of JSON numbers (which occur only in ignored members) the syntax is modelled, not the value.
* Not modelled: memory exhaustion and stack overflow (but how many calls are nested: C77, C110), `tracing`, running time
  other than the number of rounds of the Earley loop (C65–C67), the calls made in its inner loops and in reading trees (C105; what hash tables,
  sorted vectors and comparisons of texts do inside of a call is not counted) and the number of characters that the text parser looks at (C76).  For C76,
  which characters `nom`'s parsers look at is taken from its source; copying of the texts read is not counted.
* `usize` is modelled by `Nat`.  C112 shows for every addition in the code (tests and the `Debug` output of `InputRange` aside) that it cannot overflow as long as texts, trees and the stack fit into
  memory.  Ids are indices into vectors; that a vector has fewer than `usize::MAX` elements is assumed.

## Modelling decisions

* A panic (`expect`, `unreachable!`, `debug_assert!`, arithmetic overflow in debug builds) is an explicit
  value (`none` or `.panic`), so that absence of panics is a theorem.
* Unbounded loops (`earley`'s loop over the queue, the retry loop and recursion of generation) take a
  fuel argument; running out of fuel is a separate outcome that is never confused with a result.
  "The call returns r" is "exists fuel with result r" and is shown to be independent of the fuel.
  "The call does not return" is "for all fuel: out of fuel".
* Loops that terminate by construction (text parser, tree walks, `terminates()`) also take fuel where Lean cannot
  see termination; that the fuel given by the model is always sufficient is proved.

## Plan per property

Status words as in MANIFEST.json; the section "Disagreements" lists properties the code violates.

| Property | What is modelled | How it is proved |
|---|---|---|
| C01 C02 | `earley`, `TraversalTree`, `CompletionMap`, `TraversalQueue`, `parse_tree`, `InputRange`, `ParseGrammar` as a step machine | inductive invariant: every arena entry denotes a partial derivation of a slice of the input; trees read off completed entries satisfy the independent inductive predicate `IsTree` and spell the input |
| C03 | same | closure invariant (every processed waiting/completed pair has its edge, every waiting entry has its predictions) + FIFO fairness; induction on the derivation tree |
| C04 | same | the denotation of arena entries (with production ids) is injective; every id is popped at most once; the annotated derivations over one tree are enumerated and counted (`Spec/Copies`: product over inner nodes), which gives the exact multiplicity |
| C05 C13 | iterator `next` with fuel, call histories | from C01–C03 and the step machine |
| C06 | same | under acyclicity the set of partial derivations over an input is finite (well-founded induction on (length, rank)); the arena injects into it, hence the queue runs empty |
| C07 | same | refuted by a concrete cyclic grammar (invariant: queue never empties, nothing full is ever popped); partial = C06 and, for derivable inputs, C03 |
| C08 C10 | `GrammarParser::new/new_unchecked`, `parse_input*` | from the definitions and C01/C03 |
| C09 | same | from the exact characterization C01–C05, with multiplicities |
| C11 C12 C50 | panics and offsets explicit | state invariants |
| C14 C15 C16 | `NonterminalSets`, `validate`, `ParseGrammar::new` with arbitrary hash order | fold invariants; C16 refuted for productions without alternatives, agreement otherwise |
| C17–C20 C22 C23 | nom combinators, `parsers/mod.rs` completely, Display impls | concrete syntax as inductive relations `text ⊢ value`; parser ⇔ relation, Display ∈ relation |
| C21 C25 | same + `normalize_parsed_grammar` | shape of parser results |
| C24 | `plain_grammar` vs `parsed_grammar` | simulation of the two parsers on accepted texts |
| C26 C27 C28 | `is_format_standard_bnf`, `whitespace_plus_comments`, groups | induction on the text |
| C29–C32 | `normalize_parsed_grammar` | translation of derivations in both directions against an EBNF semantics on parsed grammars; C31 refuted with witness, proved without `__anon` references |
| C33 | `terminates` | marking algorithm = least fixpoint `Productive` |
| C34–C36 | `traverse_with_strategy`, `generate*` over an arbitrary strategy state machine | induction on fuel, big-step derivations; C34 uses C03 |
| C37–C40 | the four strategies over an arbitrary random source | case analysis, invariants; C38 refuted with witness, proved when all productions have a terminal alternative |
| C41 | same | choice function from productivity ranks; refuted for repeated left-hand sides |
| C42–C45 | `ParseTree::fmt`, Mermaid | loop with mutable column set = compositional drawing; numbering invariants; escape/unescape |
| C46 C47 C49 | list operations | list lemmas |
| C51 | random walk over an arbitrary random source | every expansion through first productions is produced by the random source that scripts its choices; conversely every result is such an expansion |
| C52 | `ParseTree::fmt` | the list of lines is decoded: blocks of children are separated by their branch characters |
| C53 | `add_production` | a tree is a parse iff its nodes use alternatives of the grammar; C01, C03 |
| C54 | same as C01–C06 | `Spec/Trap`: expected terms at prefixes of the input, cyclic nonterminals. Ends ⇒ every expected alternative was predicted and all its forests were seen, a cyclic nonterminal would give infinitely many; no trap ⇒ finitely many partial derivations, hence a bound on the arena |
| C55 | composition of the text parser, normalization, validation, Earley parser, generator | C23, C14, C29, C01, C03, C34; the references of a normalized grammar are the used and the fresh names |
| C56 C57 | same as C01–C06 | C01, C03 and induction on the tree; `Spec/Parts` |
| C58 | `from_str` of terms, expressions, productions | parser ⇔ syntax relation as for C23 |
| C59 | generation with `RandomWalk`, `DepthBounded`, `Weighted` | from a diverging run build an infinite path (dependent choice), from a path build a random source that follows it; `Spec/Endless` |
| C64 | generation with a callback without state | as C59, with the texts carried along (`Spec/Callback`); a rejected round is repeated by a periodic random source; C39 and C59 for `CoverageGuided` by a simulation between strategies |
| C65 C66 C67 | same as C01–C06; the fuel of `earley` counts rounds | entries of the tree correspond one-to-one to viable partial derivations (`Spec/Work`); with repeated alternatives each has as many entries as ways to choose the copies; counting by injections; `BinaryTree` and Catalan numbers of Mathlib for C67 |
| C68 | entry points of generation, abstract `StdRng` | direct; found missing by mutation G22 |
| C69 C70 | text parser with error payloads (`Model/Errors`) | refinement of the model without payloads, then exactness against `Spec/Errors` by induction on fuel |
| C71 | the `debug_assert!` of generation (`Model/Debug`): strategies return references, modelled as positions in the production or foreign expressions | simulation between the two builds by induction on fuel |
| C72 | generation | C51 and induction on `Expansion` |
| C73 | `DepthBounded` | induction on fuel, bound on the evaluation of a list of terms |
| C74 | same as C01–C06 | invariant: traversals are created in the lexicographic order of (round, parent, child) of their edges and processed in the order of creation; replacing a part by an earlier one gives an earlier whole, by induction on denotations (`Proofs/Order`) |
| C75 | same as C01–C06 | as C74, with the further invariant that the traversals predicted for one left-hand side at one position are created together and in listed order; an alternative with fewer terms needs fewer steps from its prediction (`Proofs/OrderPlain`) |
| C76 | text parser with a count of characters looked at (`Model/Cost`: the same parsers with `cost` and `depth` beside the result) | results shown equal to `Model/Text`; a parser costs 3 looks per character read plus a constant, also when it fails; loops and groups by induction on fuel; that the count is not too low by relating runs on two texts that agree in the characters counted; names by the invariant of C60 |
| C77 | the same, `depth` | induction on fuel; nested text by induction on k |
| C78 | generation with a random source that reads a tape and multiplies up its probability; `Spec/Chance`: probability of an event = sum over tapes, distribution of sentences by recursion on the expansions | all runs are listed by recursion, the list is complete, sound and without repetition; three strategies satisfy one contract `Draws` |
| C79 | the same | Bernoulli-type inequality with weights, induction on the number of expansions; fixed points below 1 for the witnesses |
| C80 | the loop of C01; `Spec/Chart`: items and `chart` | simulation: the arena and the chart grow in step (`Proofs/Chart`, `Sim`); uses the order of ids (C74) for freshness of matches |
| C81 | the same | the chart of the renamed grammar is the renamed chart, by induction on the number of items treated |
| C82 | the same; `Needed` | charts are equal, by induction on the number of items treated |
| C84 | the same as C01–C06; `Spec/ContextFree`: the grammar as a `ContextFreeGrammar` of Mathlib | big-step reading of rewriting; for the converse, empty and unit rules are eliminated (`Proofs/ContextFreeEvery`), the grammar obtained is acyclic, printable and fully defined, then C20, C14, C06 |
| C85 | the same as C29; `Spec/Splice`: trees of an extended grammar, replacing nodes of generated names by their children | induction over derivations in both directions, with the lowering relation of C29–C31 (`Proofs/Splice`); C01, C03 |
| C86 | the same as C85; `Spec/Ways`: choices made in a derivation from the text | a map from ways to derivations annotated with production ids that is injective, valid and onto (`Proofs/Ways`), and the fact that the iterator returns every annotated derivation once (the proof of C04_copies) |
| C87 | `Spec/Meta`: the two files, character by character, and the grammar they stand for; otherwise C19–C25, C33–C37, C79 | both files by evaluation of the model in the kernel (for the ABNF file lifted to every table of alphabetic characters, as the file is ASCII); sentences by induction over derivations, with the meaning of each of the 19 names as text (`Proofs/Meta`: `metaP`) |
| C88 | the same; `Spec/Meta`: `SimpleGrammar` | derivations built along the printed text; that it does not contain itself by the first characters of the lines of its sentences |
| C89 | `Model/Views`: `InputRange.debug`, `getTo` (`str::get(..n)`) | the invariant of C12 |
| C90 | `Model/Views`: comparison of bytes (Lean's `utf8EncodeChar`), derived `Ord`; `Spec/Views`: orders by code points | UTF-8 keeps the order of characters, by cases of the lengths; lexicographic orders are linear |
| C91 | `Model/Generate` (`CoverageGuided`, `traverse`, `generateWith`); `Spec/Coverage` (unavoidable nonterminals, a watched strategy, series of calls) | number of covered alternatives never falls and rises with each expansion of the nonterminal, by induction on the fuel and on unavoidability; negative parts by invariants over the series |
| C92 | `Model/Passes`: `terminates` with passes and comparisons of `Vec::contains` counted | result unchanged by counting; each pass with progress marks a new productive left-hand side; length of the list bounded by the number of productions; exact cost of the two chains by induction |
| C93 | derived `Serialize`/`Deserialize`, `serde_json` writers (compact, pretty) and reader | writer produces a text in an independent relation between values and JSON texts; the reader with enough fuel succeeds exactly on this relation, by mutual induction in both directions; conversion of values is characterised exactly by a relation |
| C94 | generators of the tests as predicates on their values (`Spec/PropertyTests`) | from the exact conditions C17 to C20, and from C87 |
| C95 | generators of the tests as predicates (`Spec/PropertyTests`); `Collects` for collecting an iterator | rank argument for acyclicity, then C06, C09, C11, C14, C15; induction on forests for inserted nonterminals |
| C96 | the three grammars, `truncate`, the two test predicates (`Spec/PropertyTests`) | invariants on the languages (form a^n b^n, odd length), C03, C05, C06, C10, C51 |
| C97 | `str::lines`, `str::split`, the decoder and the checks of the tests (`Spec/PropertyTests`) | from C43 and C44: shape of the lines and of the pieces between `["`, by induction on the edges |
| C98 | constructors, mutable iterators, sums (`Model/Editing`); `SeqSpells`, `ChangedAt` (`Spec/Editing`) | derivations of concatenated sequences; monotonicity of `IsParse` in the alternatives; removal through C46 |
| C99 | `from_str` without the feature (`Model/Features`) | from the exactness of reading (C26, C69) |
| C100 | the four structs with buffers and constructors (`Model/Strategies`) | the push loops append what the functional model computes; simulation of whole generations (`generateWith_map`) |
| C101 | addresses as a map from positions (`Strategy.placed`) | simulation with what is known about one grammar (`knownOf`); witness with reused memory |
| C102 | probabilities of C78 as least upper bound over the nested expansions (`Spec/Extinction`) | monotone convergence gives a fixed point, induction gives that it is least; in the non-growing case equality in the union bound along a nonterminal of maximal deficit leads to a set that cannot end; in the growing case the second Bonferroni inequality gives a solution below 1 |
| C103 | expected values over the tapes of C78, the length of the tape being the number of expansions (`Spec/Mean`) | recursion for the expected cost within n nested expansions; induction for the bound; costs of the first j levels as lower bounds in the limit |
| C104 | probabilities of C78 with a callback without state; repetitions count as nested expansions as in the code (`Spec/Rejection`) | runs with repetitions are enumerated and form a prefix-free set of tapes; the resulting distributions grow with the bound; the recursion is continuous, so the limits satisfy q = A + R q; below the start nothing is rejected by a callback for whole sentences, so one attempt is distributed as without callback |
| C105 | the functions of the parser and of reading trees with counters (`Model/Counted`); counts that the property names are defined from derivations and trees (`Spec/Counted`) | dropping the counters gives the functions of `Model/Earley`; in the order of ids no round finds an edge twice, so that matches are the new entries with an edge; summing over the rounds; entries of a drained iterator correspond one to one to viable partial derivations (C65); chains of traversals for the look-ups |
| C106 | the counted parser of C105 run on the two texts or grammars | `Viable` (C65) is closed under longer texts and larger grammars, and a partial derivation that ends within the beginning is viable for the beginning; the counts of C105 are sizes of such sets |
| C107 | `traverse` run on tapes (C78) and the parser | `dist` refined to a distribution of derivation trees; the mass at a tree is the product of the shares, by induction on the nesting; the sum over outcomes regrouped by trees; the parser returns exactly these trees (C01, C05), as often as they can be read (C04) |
| C108 | `Grammar.parseFrom`, `Grammar.fromStr`, `Grammar.display` against the concrete syntax `GrammarText`; `Spec/Reprint.lean`: `PlainName`, `WritableGrammar`, the ABNF printer `abnfText` (a specification, the crate has none) | the names of the normalized grammar are those of the text and `__anonN`; induction over the printed text |
| C109 | `traverse` with `RandomWalk`, `DepthBounded`, `Weighted`; the ideal source of C78 | equal choices below the bound; expectations depend only on the averages over the offered alternatives; recursive alternatives end at most as often as the nonterminal itself, so that shifting weight to them lowers the mean |
| C110 | `parseTree` and `traverse`, whose fuel counts the nested calls; nesting of a tree as in C107; `Acyclic` as in C06 | induction on the calls; for the bound induction on the tree with the measure (length of the text, number of names reachable by unit steps) |
| C111 | `generateSeededWithStrategy` with the ideal source of C78; least upper bounds over the nesting, Mathlib's `HasSum` over the set of trees | every finite set of trees is within some nesting, and a bounded nesting has finitely many trees; regrouping of the sum by sentences |
| C112 | `Model/Machine`: the functions that add, once more, with a bound `max` and failure above it | the invariant of the parser bounds offset and length of every range by the input; a name is generated at most once per group or clash; depth and node numbers are bounded by the tree |
| C113 | `Spec/TestGrammars`: texts and grammars of the tests; `Proofs/AcyclicCheck`: a decidable certificate for `Acyclic` | the trees of each grammar are determined by induction over derivations; C01, C03 – C06, C54, C74 turn this into what the iterator returns |
| C114 | `Spec/Ambiguity`: ways to read a text; the model as for C65 | partial derivations at one place with one range are completed by a fixed forest to trees of one text of at most L + c characters; conversely the trees of an expected term are partial derivations; both injections keep the number of copies, and C65 counts |
| C115 | `Model/Serde` as for C93; `Spec/JsonLayout`: compact texts by concatenation, pretty texts as lists of indented lines | structural; the text below depth d equals the lines moved right by d; lengths by induction over JSON texts |
| C116 | `Spec/Postal`: the text, the grammar and the number of trees as the cardinality of a set; generation with an ideal random source as for C78 | reading by kernel computation; acyclic, hence C06 and C05; trees from the ways to cut a name; C102 with the position of the rules as rank; the mean as a sum over trees, 52^n names of n letters with probability q/104^n and 2^(n-1) trees each |
| C117 | `Spec/CoverChance`: distributions that carry the set of used alternatives along, written without the model's generator | the runs as a prefix-free list of tapes with the memory afterwards; ending: induction on the number of unused alternatives, with expected values over the memory afterwards; inheritance of probability 1 by reachable nonterminals |
| C118 | `Model/DebugText`: the builders of core::fmt with the PadAdapter, and escape_debug with the table of printable characters as a parameter; `Spec/DebugText`: the texts with explicit indentation | self-delimiting texts: strings by cases on escapes, lists, then each type; the PadAdapter adds one level to every line since names and quoted strings have no line feeds |
| C119 | `Spec/Combine`: the combined grammars, `Combinable`, pairs and chains of trees | C82 gives the behaviour of the parts; trees of the new root by inversion of derivations, ends by C54 with the expected terms read from the top, multiplicities by C04 |
| C120 | `Spec/DrawSize`: sums over the nodes of a tree; the texts are those of C42 and C43 | induction over the tree on the drawing of C42 and the edges of C43; the DNA tree from C113 |
| C121 | `Spec/Repeated`: calls in a row with one tape, probabilities of events over several calls, rules listing their sentences | the runs of several calls as a prefix-free list of tapes (as for C78); the probability that something is still missing by a recursion over calls, its sum over the number of calls by comparing partial sums and uniqueness of limits; for coverage an invariant on the used alternatives |
| C122 | Spec/CustomFormat.lean: formats a program can define, conditions on a well chosen format, grammars expressible in a format and a writer; the parsers of Model/Text.lean are already parametrized over the format | Soundness and totality proofs generalized from regular formats to all; for the fast parser, each of its parsers is simulated by the extended one, using that a production is only left where the text ends or a left-hand side follows; witnesses for the formats excluded |
| C123 | Spec/Joining.lean: what may end a line in a format; the syntax of Spec/Syntax.lean is context-free, so extending a text at its end is an induction on its reading (Proofs/Joining.lean). | The reading of the joined text is constructed and C122_exact turns it into what the parser returns. |
| C124 | Spec/Pumping.lean: sizes of alternatives, the bound, repeated texts; derivations are those of Spec/Derivation.lean | A derivation with the fewest nodes; either no name occurs below itself, which bounds the length, or the lowest repetition can be iterated; leaving it out would give a smaller derivation of the same text if the repeated parts were empty. The claims about the parser follow with C03 and C05. |
| C125 | Spec/Ebnf.lean (`Means`), Spec/Derivation.lean; the alphabet is stated in terms of the productions | Induction on derivations, then C05; the README's rules by C29 and one inversion step of `Means` each. |
| C126 | Model/Editing.lean: the loop, writing to one item after the other; Spec/Overwrite.lean: leaves of trees, trees with other leaves, grammars that do not share names | The loop is a map; then induction on derivation forests in both directions; C01, C03, C14 and C33 for the parser and terminates(). |
| C127 | Spec/Normalized.lean: the words of a text, brackets in a text, punctuation | From the description of normalization used for C29 and C30, by following each word into the normalized grammar and back; the reading is unique by C23. |
| C128 | Model/ErrorValue.lean: Error with all texts, Display and derived Debug; Spec/ErrorValue.lean: which errors functions return | The beginnings of the texts of different functions differ (induction over the traversal for generation); Debug by the uniqueness of quoted texts from C118. |
| C129 | Mathlib's DFA and Language.IsRegular as the specification; rounds counted as in C65 | A left-recursive grammar with one nonterminal per reached state: unambiguous, productive, anything is expected only at the beginning; then C66's bound, and the number of places of the grammar by counting transitions by their target. |
| C130 | Spec/Prefix.lean: PrefixUnique, Marked, on derivation trees only; rounds counted as in C65 and C105 | Two forests for the same terms that both begin the rest of the input are equal, so a viable partial derivation is determined by its place in the grammar and the position where it began; counted, then C65. |
| C131 | Spec/Refactor.lean: rewriting of lists of terms, replaced alternatives, turned repetitions, as relations between grammars | Induction over derivations; for inlining with a stronger claim about one step of unfolding, for repetitions with lemmas that extend a repetition at its far end; then C03 and C05 for the parser. |
| C132 | Viable partial derivations and copies of Spec/Work.lean and Spec/Copies.lean, whose number is exactly the number of rounds (C65), and node counts of Spec/Display.lean | Trees that spell nothing have bounded depth since every step down is a unit step; other trees by a weight that drops when the text is split and a rank that drops when it is not. Trees are told apart by the list of alternatives in preorder, and there are exponentially many lists of linear length. |
| C133 | Model/Bytes.lean: the functions of the standard library on bytes, and the functions of the parser that look at the text once more, reading bytes only | First bytes of encodings are never later bytes of any, and encodings of different characters differ before one ends; induction over the text. The two parsers are equal round by round since all ranges refer to the same text. |
| C134 | Model/Generic.lean: both helpers generically; Spec/Generic.lean: how a list with separators can end | Induction over the rounds and over the items read; an endless run is built by choice; the lists of Model/Errors are shown to be an instance. |
| C135 | Model/TreeEditing.lean: writing and reading at the end of a path through the items of the iterators | Induction over the path; one occurrence is replaced (Spec/Parts), which keeps forests exactly if the new node is a tree; mutual induction over Mermaid's recursion. |
| C136 | Model/GrammarPrefix.lean: grammar | The characterisation of parsed_grammar made for C69 (Spec/Errors), carried over along the refinement that forgets the payload of errors; normalization is total. |
| C83 | states between rounds (`Spec/Dead`) | from the simulation of C80 |
| C60 | text parser and normalization | invariant of the name counter: names handed out = undeclared names below the counter; `Spec/Names` |
| C61 | Mermaid rendering | edge lists are read back: induction on the forest with the remaining edges; `Spec/Mermaid` |
| C62 C63 | same as C01–C06 | C01, C03 and maps on derivations; `Spec/Rename` |
| C48 | macro rules as token-munching state machine | exact result computed; refuted for ≥3 alternatives/productions |

## Disagreements between code and expected property

Found by reading, confirmed as theorems on the model (names in brackets).

1. Cyclic grammars: `next()` of the parse iterator can run forever instead of returning `None` [C07_witness, C07_diverges]; C54 gives the exact condition. The grammars of the tests `recursive_nested_infinite`, `empty_first_nested` and `empty_noop_infinite` do so on inputs the tests do not try [C113].
2. A production with repeated alternatives gives the same tree several times [C04_duplicates_witness], exactly once per choice of equal alternatives at its inner nodes [C04_copies_exact].
3. `validate()` accepts and `build_parser()` rejects a grammar that refers to a nonterminal whose productions have no alternatives
   [C16_disagreement].
4. Terminals with both kinds of quotes, empty expressions and the like are printed as text that is not read back
   [C17_failure_witness; C17–C20 characterise exactly when the round trip works].
5. ABNF names containing '>' are accepted, but the printed grammar is not read back [C21_abnf_witness], or is read as a different grammar without an error: `a = b>|<c` (one alternative) prints as `<a> ::= <b>|<c>` (two) [C108_misread_witness].
6. White space after `(` and `[` is an error, before `)` it is not [C22_bracket_witness]; `::=|` is accepted and `::= |` is not
   [C22_bar_witness].
7. The heuristic `grammar_has_extended_syntax` fast path guesses wrongly on some texts, without an effect on the result
   [C24_heuristic_witness, C24_fast_path_transparent].
8. A nonterminal called `__anonN` that is used but not defined is captured by a generated name [C31_capture_witness]; C60_capture_iff gives the exact condition.
9. Generation writes the bare name of an undefined nonterminal; the documentation promises `<name>` [C34_undefined_witness].
10. On a production without alternatives the strategies panic, although `choose` could return `None` [C37_empty_panics].
11. `DepthBounded` does not bound generation, whatever `max_depth` is [C38_witness]. C59_depth_bounded gives the exact condition.
12. `Weighted` adds up its weights in `u32`: overflow panics in debug builds and distorts the distribution in release builds
    [C40_overflow_panics, C40_overflow_wraps].
13. `terminates()` looks at all productions of a left-hand side, generation only at the first one, so a "terminating" grammar
    can have no sentence that generation finds [C41_several_productions_witness]; an alternative without terms that is the only one
    is an error for generation [C41_bare_alternative_witness].
14. Rendering a tree as Mermaid panics if the starting term is a terminal left-hand side [C45_terminal_start_panics].
15. Removing the first production makes the *last* one the starting production [C47_start_witness].
16. `production!` and `grammar!` reorder alternatives and productions; with three or more productions `grammar!` starts with the last but one
    [C48_order_witness, C48_start_witness, C48_start_last_but_one].
17. `Term + Expression` appends the term at the end [C49_order_witness].
18. Line breaks in labels make the printed tree ambiguous [C52_line_break_witness].
19. In Mermaid output a childless inner node looks like a terminal [C61_childless_witness].
20. Parsing ambiguous texts, or rejecting texts with an ambiguous beginning, takes exponentially many steps, where an Earley parser with shared items
    would take cubically many [C67_rejecting]; right recursion takes quadratically many [C66_right_recursion].
21. The position in a parse error can be misleading: a wrong left-hand side is reported at the production before it
    [C70_previous_production_witness], anything wrong inside a group at its bracket [C70_bracket_witness], an unclosed quote as a
    missing `<` [C70_term and its examples].
22. README (121-122) says that an undefined nonterminal is printed as its `<identifier>`; its bare name is printed [C72_witness].
23. A strategy returning an expression equal to, but not stored in, the production makes a debug build panic and a release build succeed; any other
    expression makes a release build return sentences outside the language [C71_foreign_witness].
24. There is no limit on the nesting of groups and optionals, and each level takes several stack frames before anything else is checked: a text of a few
    hundred kilobytes of `(` makes the parser recurse as deeply as that [C77_no_limit].  (That the stack overflows then is outside the model.)
25. Generation may never return although `terminates()` is true and every nonterminal has a short sentence: `<s> ::= 'x' | <s> <s> <s>` runs forever with
    a probability of more than 1/3 [C79_random_walk_witness]; `DepthBounded` ("guaranteeing termination") does not change this for
    `<s> ::= <a> | <s> <s> <s>`, whatever its bound [C79_depth_bounded_witness]; `Weighted::default()` returns a sentence of `<s> ::= 'x' | <s> <s>` with a
    probability of at most 1 % [C79_weighted_witness].
26. `CoverageGuided::new()`, `Weighted::new()` and `Weighted::default()` always start from the seed of 32 zero bytes (generation.rs 153-161, 225-233), unlike
    `RandomWalk::default()` and `DepthBounded::new()`: every program run generates the same sentences [C100_constructors].
27. (Not a disagreement.)  The map `edges` of the traversal tree is never hit, and the sorted insertion always appends [C83_edges, C83_append]: both
    could be simpler without any change of behaviour.
28. "Suited for generating data that fully explores all options of the grammar" (generation.rs 142) holds for nonterminals that no expansion can avoid
    [C91_covered], not for others: once all alternatives of `<s>` were used, nothing steers towards the unused ones of `<a>` [C91_starved].  The comment
    "(nonterminal, `expression_index`) pairs" (145) is not what the code keeps: it is the address of the left-hand side, which `remove_production` gives to
    another production [C91_stale].
29. (Not a disagreement.)  `terminates()`, called before every generation, can take cubic work in the number of rules, depending on their order
    [C92_worst, C92_order].
30. Deserializing makes none of the checks that reading a text makes: every value of the type can be had from JSON, with terminals on the
    left-hand side, without alternatives, with empty alternatives or empty altogether [C93_unchecked].
31. The property test `parse_prop_terminals_equal_input` (`tests/parse_input.rs` 817) is wrong: its generator cuts sentences after 50 bytes, and a
    cut sentence of the second or third grammar is never a sentence, so the test fails for every generated sentence of more than 50 bytes
    [C96_passes_iff, C96_cut_witness].
32. (Not a disagreement.)  The property tests `parser_order_independent` and `parser_reusable` only compare trees without inner nodes: in the
    grammars they generate a nonterminal refers to earlier ones only, and the starting one is the first [C95_flat_trees].
33. A `CoverageGuided` value outlives the grammars it was used with, and the addresses it keeps may be given to another grammar, whose alternatives then
    count as used although they never were [C101_reused_memory].  With grammars that are all alive there is no such confusion [C101_own, C101_others].
34. (Not a disagreement.)  The "Polish notation" grammar of the benchmarks (`benches/divan.rs` 79-82) is exactly at the edge: random generation from it
    ends with probability 1 [C102_polish_bench], and the expected number of expansions is infinite [C103_polish_bench].
35. (Not a disagreement.)  The benchmarks `parse_postal_input` and `parse_postal_with_parser` (`benches/divan.rs` 31-59, 206-235) go through all trees of
    generated addresses; first names are not separated, a name of n + 1 letters has 2^(n-1) trees or more [C116_trees], and the expected number of trees is
    infinite [C116_expected].
36. "Suited for generating data that fully explores all options" also does not mean that it returns: a new `CoverageGuided` ends with a probability of at most 0.7
    for `<s> ::= 'x' | <s> <s> <s>` [C117_witness]; in general it ends with probability 1 in all situations exactly if the random walk does [C117_ends].
37. (Not a disagreement.)  Printed parse trees of deep grammars are quadratic in the input, because every line repeats the indentation: C120.
38. The trait `Format` is public, but nothing says which implementations work.  C122 gives conditions under which all results for the two formats of the crate
    carry over, and shows what happens outside them: formats that accept nothing (separator empty or beginning with whitespace or `;`), formats in which the
    second alternative is never seen, texts with a reading that are rejected, and, for alternatives separated by `(`, texts on which the two parsers disagree.
39. The README says "parser allows for an optional ';' to indicate the end of a production".  There is no such token: `;` begins a comment, so in BNF everything
    after it on the line is lost without an error, also further productions (`C123_semicolon`, `C123_lost_witness`), and in ABNF a `;` directly after a name
    becomes part of the name (`C123_abnf_name`).
40. The README says of `<s> ::= <a> | <b> <c>` that "b c" matches, and of the rule with parentheses that "a c" and "b c" match.  Read as inputs these have no parse
    tree: blanks in the input are not skipped (`C125_nothing_skipped`, `C125_readme_blank`).  The inputs meant are "bc" and "ac" (`C125_readme_loose`, `C125_readme_tight`).
41. (Not a disagreement.)  `xt_list_with_separator` has no check for progress, unlike the `many1` its comment compares it with: with parsers that succeed without
    reading anything it loops forever (`C134_no_check`).  The crate does not use it so.
42. Parse trees can be changed without any check: the change in the crate's own test leaves a tree that is no derivation (`C135_unchecked_witness`), and after a terminal
    is assigned to the public field `lhs`, `mermaid()` panics with `unreachable!` (`C135_lhs`; exact condition: `C135_mermaid`).
43. The tests of `src/parsers/bnf.rs` and `augmented.rs` that call `grammar` drop the text it leaves, so they would pass for texts that `Grammar::parse_from` rejects
    (`C136_rest_witness`).
