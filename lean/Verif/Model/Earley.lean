import Verif.Model.ParseGrammar

/-!
# The Earley parser (`src/earley`)

`none` results stand for panics (`expect`).  `&mut` arguments are threaded through as results.
-/

namespace Bnf

/-- `src/earley/input_range.rs` 13-18 with 1-5 inlined: `InputRange`. -/
structure InputRange where
  input : Str
  start : Nat
  len : Nat
  deriving Repr, DecidableEq

namespace InputRange

/-- `src/earley/input_range.rs` 8-10: `total_len`. -/
def totalLen (r : InputRange) : Nat := r.start + r.len

/-- `src/earley/input_range.rs` 21-26: `InputRange::new`. -/
def new (input : Str) : InputRange := ⟨input, 0, 0⟩

/-- `src/earley/input_range.rs` 29-32: `next`, remaining input with fallback `""`. -/
def next (r : InputRange) : Str := (getFrom r.input (r.start + r.len)).getD []

/-- `src/earley/input_range.rs` 33-41: `after`. -/
def after (r : InputRange) : InputRange := ⟨r.input, r.start + r.len, 0⟩

/-- `src/earley/input_range.rs` 43-51: `advance_by`; `none` is the panic (debug) or wrap-around
(release) of the unsigned subtraction `input.len() - start`. -/
def advanceBy (r : InputRange) (step : Nat) : Option InputRange :=
  if byteLen r.input < r.start then none
  else
    let maxLen := byteLen r.input - r.start
    some ⟨r.input, r.start, min (r.len + step) maxLen⟩

/-- `src/earley/input_range.rs` 52-54: `is_complete`. -/
def isComplete (r : InputRange) : Bool := r.start == 0 && r.len == byteLen r.input

end InputRange

/-- `src/earley/traversal.rs` 11-18: `TermMatch`. -/
inductive TermMatch where
  | terminal (s : Str)
  | nonterminal (id : Nat)
  deriving DecidableEq, Repr

/-- `src/earley/traversal.rs` 44-49: `TraversalEdge`. -/
structure Edge where
  term : TermMatch
  parent : Nat
  deriving DecidableEq, Repr

/-- `src/earley/traversal.rs` 20-36: `Traversal`. -/
structure Traversal where
  id : Nat
  unmatched : List Term
  range : InputRange
  prodId : Nat
  isStarting : Bool
  src : Option Edge
  deriving Repr

/-- `src/earley/traversal.rs` 38-42: `next_unmatched` (`get_matching`, 134-136, is this of an entry). -/
def Traversal.nextUnmatched (t : Traversal) : Option Term := t.unmatched.head?

/-- `src/earley/traversal.rs` 123-128 with 51-60: `TraversalTree`; root keys (51-56) are pairs
(production id, input start); the arena (`src/append_vec.rs` 27-66) is a list. -/
structure TravTree where
  arena : List Traversal
  roots : AMap (Nat × Nat) Nat
  edges : AMap Edge Nat
  deriving Repr

namespace TravTree

/-- `src/earley/traversal.rs` 131-133: `get`; `none` is the panic "valid traversal ID". -/
def get (t : TravTree) (id : Nat) : Option Traversal := t.arena[id]?

/-- `src/earley/traversal.rs` 140-182: `_predict`, `predict_starting`, `predict`. -/
def predict (t : TravTree) (range : InputRange) (p : FlatProd) (isStarting : Bool) : Nat × TravTree :=
  let key := (p.id, range.totalLen)
  match t.roots.get key with
  | some id => (id, t)
  | none =>
    let id := t.arena.length
    (id, { t with
      arena := t.arena ++ [⟨id, p.rhs.terms, range.after, p.id, isStarting, none⟩]
      roots := t.roots.set key id })

/-- `src/earley/traversal.rs` 186-198: input range of the traversal extended by one matched term. -/
def matchRange (t : TravTree) (parent : Traversal) : TermMatch → Option InputRange
  | .terminal s => parent.range.advanceBy (byteLen s)
  | .nonterminal c =>
    match t.get c with
    | none => none
    | some tc => parent.range.advanceBy tc.range.len

/-- `src/earley/traversal.rs` 183-220: `match_term`. -/
def matchTerm (t : TravTree) (parentId : Nat) (m : TermMatch) : Option (Nat × TravTree) :=
  match t.get parentId with
  | none => none
  | some parent =>
    match t.matchRange parent m with
    | none => none
    | some range =>
      match parent.unmatched with
      | [] => none
      | _ :: unmatched =>
        let src : Edge := ⟨m, parent.id⟩
        match t.edges.get src with
        | some id => some (id, t)
        | none =>
          let id := t.arena.length
          some (id, { t with
            arena := t.arena ++ [⟨id, unmatched, range, parent.prodId, parent.isStarting, some src⟩]
            edges := t.edges.set src id })

/-- `src/earley/traversal.rs` 80-83 (within 70-91): the loop of `TraversalMatchIter::new`, walking up to the root.
`none`: invalid id or fuel exhausted. -/
def walkRoot (t : TravTree) : Nat → Nat → Option Nat
  | 0, _ => none
  | fuel + 1, cur =>
    match t.get cur with
    | none => none
    | some tr =>
      match tr.src with
      | none => some cur
      | some e => walkRoot t fuel e.parent

/-- `src/earley/traversal.rs` 101-112: the loop of `TraversalMatchIter::next`.
Outer `none`: invalid id or fuel exhausted. -/
def scanUp (t : TravTree) (current : Nat) : Nat → Nat → Option (Option (TermMatch × Nat))
  | 0, _ => none
  | fuel + 1, scan =>
    match t.get scan with
    | none => none
    | some tr =>
      match tr.src with
      | none => some none
      | some e => if current = e.parent then some (some (e.term, scan)) else scanUp t current fuel e.parent

/-- `src/earley/traversal.rs` 93-113: draining `TraversalMatchIter` from `current` to `last`.
The fuel bounds are the arena size, which is always sufficient (`Proofs/ReadTree`). -/
def collectMatches (t : TravTree) (last : Nat) : Nat → Nat → Option (List TermMatch)
  | 0, _ => none
  | fuel + 1, current =>
    if current = last then some []
    else
      match t.scanUp current (t.arena.length + 1) last with
      | none => none
      | some none => some []
      | some (some (m, current')) =>
        match collectMatches t last fuel current' with
        | none => none
        | some ms => some (m :: ms)

/-- `src/earley/traversal.rs` 137-139: `get_matched`, drained. -/
def getMatched (t : TravTree) (id : Nat) : Option (List TermMatch) :=
  match t.walkRoot (t.arena.length + 1) id with
  | none => none
  | some root => t.collectMatches id (t.arena.length + 1) root

end TravTree

/-- `src/earley/mod.rs` 52-61: `TraversalQueue` (`pop_front` takes the head of the list). -/
structure TravQueue where
  processed : List Nat
  queue : List Nat
  deriving Repr

/-- `src/earley/mod.rs` 63-67: `push_back`. -/
def TravQueue.pushBack (q : TravQueue) (id : Nat) : TravQueue :=
  if id ∈ q.processed then q else ⟨id :: q.processed, q.queue ++ [id]⟩

/-- `src/earley/mod.rs` 262-267: `sorted_vec_insert`.  `binary_search` on a sorted vector finds the
element or the position of the first larger one (the vectors are sorted, see C50). -/
def sortedVecInsert : List Nat → Nat → List Nat
  | [], id => [id]
  | x :: xs, id => if x = id then x :: xs else if id < x then id :: x :: xs else x :: sortedVecInsert xs id

/-- `src/earley/mod.rs` 239-258 and 269-286: `CompletionMap` (capacities have no meaning here); keys are (term, input position). -/
structure CompletionMap where
  incomplete : AMap (Term × Nat) (List Nat)
  complete : AMap (Term × Nat) (List Nat)
  deriving Repr

namespace CompletionMap

/-- `src/earley/mod.rs` 289-297 with 247-252: `get_incomplete`. -/
def getIncomplete (c : CompletionMap) (term : Term) (tr : Traversal) : List Nat :=
  (c.incomplete.get (term, tr.range.start)).getD []

/-- `src/earley/mod.rs` 298-306 with 253-258: `get_complete`. -/
def getComplete (c : CompletionMap) (term : Term) (range : InputRange) : List Nat :=
  (c.complete.get (term, range.totalLen)).getD []

/-- `src/earley/mod.rs` 307-322: `insert`. -/
def insert (c : CompletionMap) (tr : Traversal) (lhs : Term) : CompletionMap :=
  match tr.nextUnmatched with
  | some (.terminal _) => c
  | some (.nonterminal n) =>
    let key := (Term.nonterminal n, tr.range.totalLen)
    { c with incomplete := c.incomplete.set key (sortedVecInsert ((c.incomplete.get key).getD []) tr.id) }
  | none =>
    let key := (lhs, tr.range.start)
    { c with complete := c.complete.set key (sortedVecInsert ((c.complete.get key).getD []) tr.id) }

end CompletionMap

/-- The mutable parts of `ParseTreeIter`, `src/earley/mod.rs` 183-188. -/
structure PState where
  tree : TravTree
  queue : TravQueue
  completions : CompletionMap
  deriving Repr

/-- The loops predicting productions: `src/earley/mod.rs` 133-137 (`isStarting = false`) and 76-79
(`isStarting = true`). -/
def predictAll (range : InputRange) (isStarting : Bool) : List FlatProd → TravTree → TravQueue → TravTree × TravQueue
  | [], t, q => (t, q)
  | p :: ps, t, q =>
    let r := t.predict range p isStarting
    predictAll range isStarting ps r.2 (q.pushBack r.1)

/-- The loops matching terms: `src/earley/mod.rs` 139-144, 150-152 and 164-170, as a list of
(parent, matched term). -/
def matchAll : List (Nat × TermMatch) → TravTree → TravQueue → Option (TravTree × TravQueue)
  | [], t, q => some (t, q)
  | (parent, m) :: rest, t, q =>
    match t.matchTerm parent m with
    | none => none
    | some (id, t') => matchAll rest t' (q.pushBack id)

/-- `str::starts_with`. -/
def startsWith (s p : Str) : Bool := p.isPrefixOf s

/-- One round of the loop in `src/earley/mod.rs` 115-177 for the popped traversal `id`.
The flag tells whether the loop returns `Some(id)` after this round. -/
def earleyRound (pg : ParseGrammar) (st : PState) (id : Nat) : Option (PState × Bool) :=
  match st.tree.get id with
  | none => none
  | some tr =>
    match tr.nextUnmatched with
    | some (.nonterminal n) =>
      match pg.prodById tr.prodId with
      | none => none
      | some prod =>
        let completions := st.completions.insert tr prod.lhs
        match pg.prodsFor (.nonterminal n) with
        | none => none
        | some prods =>
          let r := predictAll tr.range false prods st.tree st.queue
          match matchAll ((completions.getComplete (.nonterminal n) tr.range).map
              fun c => (id, TermMatch.nonterminal c)) r.1 r.2 with
          | none => none
          | some (tree, queue) => some (⟨tree, queue, completions⟩, false)
    | some (.terminal s) =>
      if startsWith tr.range.next s then
        match matchAll [(id, TermMatch.terminal s)] st.tree st.queue with
        | none => none
        | some (tree, queue) => some (⟨tree, queue, st.completions⟩, false)
      else some (st, false)
    | none =>
      let isFull := tr.isStarting && tr.range.isComplete
      match pg.prodById tr.prodId with
      | none => none
      | some prod =>
        let completions := st.completions.insert tr prod.lhs
        match matchAll ((completions.getIncomplete prod.lhs tr).map
            fun i => (i, TermMatch.nonterminal id)) st.tree st.queue with
        | none => none
        | some (tree, queue) => some (⟨tree, queue, completions⟩, isFull)

/-- Outcome of a call that may panic or not return. -/
inductive Outcome (α : Type) where
  | outOfFuel
  | panic
  | returned (a : α)
  deriving Repr

/-- `src/earley/mod.rs` 108-180: `earley`, at most `fuel` rounds. -/
def earley (pg : ParseGrammar) : Nat → PState → Outcome (Option Nat × PState)
  | 0, _ => .outOfFuel
  | fuel + 1, st =>
    match st.queue.queue with
    | [] => .returned (none, st)
    | id :: rest =>
      match earleyRound pg { st with queue := { st.queue with queue := rest } } id with
      | none => .panic
      | some (st', true) => .returned (some id, st')
      | some (st', false) => earley pg fuel st'

/-- `src/earley/mod.rs` 84-104: `parse_tree`; the fuel bounds the nesting of recursive calls.
`none`: panic or fuel exhausted; neither happens, see `Proofs/ReadTree`. -/
def parseTree (t : TravTree) (pg : ParseGrammar) : Nat → Nat → Option ParseTree
  | 0, _ => none
  | fuel + 1, id =>
    match t.get id with
    | none => none
    | some tr =>
      match pg.prodById tr.prodId with
      | none => none
      | some prod =>
        match t.getMatched id with
        | none => none
        | some ms =>
          match ms.mapM (fun m => match m with
            | .terminal s => some (ParseTreeNode.terminal s)
            | .nonterminal c =>
              match parseTree t pg fuel c with
              | none => none
              | some pt => some (ParseTreeNode.nonterminal pt.lhs pt.rhs)) with
          | none => none
          | some rhs => some ⟨prod.lhs, rhs⟩

/-- `src/earley/mod.rs` 182-188: `ParseTreeIter`. -/
structure ParseTreeIter where
  parser : GrammarParser
  st : PState
  deriving Repr

/-- `src/earley/mod.rs` 190-218 with 69-80: `ParseTreeIter::new`; whether the parser is borrowed or owned (`ParserHold`, 22-50)
makes no difference to what it does; `none` is the panic of
`get_productions_by_lhs`. -/
def ParseTreeIter.new (parser : GrammarParser) (input : Str) (start : Option Term) : Option ParseTreeIter :=
  match parser.parseGrammar.prodsFor (start.getD parser.startingTerm) with
  | none => none
  | some prods =>
    let r := predictAll (InputRange.new input) true prods ⟨[], [], []⟩ ⟨[], []⟩
    some ⟨parser, ⟨r.1, r.2, ⟨[], []⟩⟩⟩

/-- `src/earley/mod.rs` 220-238: `ParseTreeIter::next` with at most `fuel` rounds of the queue loop. -/
def ParseTreeIter.next (fuel : Nat) (it : ParseTreeIter) : Outcome (Option ParseTree × ParseTreeIter) :=
  match earley it.parser.parseGrammar fuel it.st with
  | .outOfFuel => .outOfFuel
  | .panic => .panic
  | .returned (none, st) => .returned (none, { it with st := st })
  | .returned (some id, st) =>
    match parseTree st.tree it.parser.parseGrammar (st.tree.arena.length + 1) id with
    | none => .panic
    | some t => .returned (some t, { it with st := st })

/-- `src/parser/mod.rs` 82-89 and `src/earley/mod.rs` 13-20: `parse_input_starting_with`. -/
def GrammarParser.parseInputStartingWith (p : GrammarParser) (input : Str) (start : Term) :
    Option ParseTreeIter :=
  ParseTreeIter.new p input (some start)

/-- `src/parser/mod.rs` 71-77: `parse_input`. -/
def GrammarParser.parseInput (p : GrammarParser) (input : Str) : Option ParseTreeIter :=
  p.parseInputStartingWith input p.startingTerm

/-- `src/grammar.rs` 450-456: deprecated `Grammar::parse_input`; `none` is a panic. -/
def Grammar.parseInputDeprecated (g : Grammar) (input : Str) : Option ParseTreeIter :=
  match g.newUnchecked with
  | none => none
  | some p => ParseTreeIter.new p input none

/-- `src/grammar.rs` 478-485: deprecated `Grammar::parse_input_starting_with`; `none` is a panic. -/
def Grammar.parseInputStartingWithDeprecated (g : Grammar) (input : Str) (start : Term) :
    Option ParseTreeIter :=
  match g.newUnchecked with
  | none => none
  | some p => ParseTreeIter.new p input (some start)

end Bnf
