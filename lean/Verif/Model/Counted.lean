import Verif.Model.Earley

/-!
# The Earley parser, counting what its loops do

The same functions as in `Model/Earley`, which in addition count the iterations of the inner loops (that dropping the counts gives the functions of
`Model/Earley` is C105_counted).  Counted are calls, not what happens inside of hash tables or in comparisons of strings.
-/

set_option autoImplicit false

namespace Bnf

/-- What is counted: rounds of the loop in `src/earley/mod.rs` 115, calls of `predict` (134), of `match_term` (141, 151 and 166), of `starts_with` (149), and
look-ups `TraversalTree::get` when a tree is read (`src/earley/mod.rs` 90, `src/earley/traversal.rs` 81 and 103). -/
structure Calls where
  rounds : Nat := 0
  predicts : Nat := 0
  matches_ : Nat := 0
  tests : Nat := 0
  gets : Nat := 0
  deriving Repr, DecidableEq

/-- Work done one after the other. -/
def Calls.plus (a b : Calls) : Calls :=
  ⟨a.rounds + b.rounds, a.predicts + b.predicts, a.matches_ + b.matches_, a.tests + b.tests, a.gets + b.gets⟩

/-- `src/earley/mod.rs` 133-137: `predictAll`, counting calls of `predict`. -/
def predictAllC (range : InputRange) (isStarting : Bool) : List FlatProd → TravTree → TravQueue → (TravTree × TravQueue) × Nat
  | [], t, q => ((t, q), 0)
  | p :: ps, t, q =>
    let r := t.predict range p isStarting
    let s := predictAllC range isStarting ps r.2 (q.pushBack r.1)
    (s.1, s.2 + 1)

/-- `src/earley/mod.rs` 139-144, 150-152 and 164-170: `matchAll`, counting calls of `match_term`. -/
def matchAllC : List (Nat × TermMatch) → TravTree → TravQueue → Option ((TravTree × TravQueue) × Nat)
  | [], t, q => some ((t, q), 0)
  | (parent, m) :: rest, t, q =>
    match t.matchTerm parent m with
    | none => none
    | some (id, t') =>
      match matchAllC rest t' (q.pushBack id) with
      | none => none
      | some (r, n) => some (r, n + 1)

/-- `src/earley/mod.rs` 115-177: `earleyRound` with counts. -/
def earleyRoundC (pg : ParseGrammar) (st : PState) (id : Nat) : Option (PState × Bool × Calls) :=
  match st.tree.get id with
  | none => none
  | some tr =>
    match tr.nextUnmatched with
    | some (.nonterminal n) =>
      match pg.prodById tr.prodId with
      | none => none
      | some prod =>
        let completions := st.completions.insert tr prod.lhs
        match pg.prodsFor (.nonterminal n) with
        | none => none
        | some prods =>
          let r := predictAllC tr.range false prods st.tree st.queue
          match matchAllC ((completions.getComplete (.nonterminal n) tr.range).map
              fun c => (id, TermMatch.nonterminal c)) r.1.1 r.1.2 with
          | none => none
          | some ((tree, queue), k) => some (⟨tree, queue, completions⟩, false, { rounds := 1, predicts := r.2, matches_ := k })
    | some (.terminal s) =>
      if startsWith tr.range.next s then
        match matchAllC [(id, TermMatch.terminal s)] st.tree st.queue with
        | none => none
        | some ((tree, queue), k) => some (⟨tree, queue, st.completions⟩, false, { rounds := 1, tests := 1, matches_ := k })
      else some (st, false, { rounds := 1, tests := 1 })
    | none =>
      let isFull := tr.isStarting && tr.range.isComplete
      match pg.prodById tr.prodId with
      | none => none
      | some prod =>
        let completions := st.completions.insert tr prod.lhs
        match matchAllC ((completions.getIncomplete prod.lhs tr).map
            fun i => (i, TermMatch.nonterminal id)) st.tree st.queue with
        | none => none
        | some ((tree, queue), k) => some (⟨tree, queue, completions⟩, isFull, { rounds := 1, matches_ := k })

/-- `src/earley/mod.rs` 108-180: `earley` with counts; the round that finds the queue empty is counted. -/
def earleyC (pg : ParseGrammar) : Nat → PState → Outcome (Option Nat × PState × Calls)
  | 0, _ => .outOfFuel
  | fuel + 1, st =>
    match st.queue.queue with
    | [] => .returned (none, st, { rounds := 1 })
    | id :: rest =>
      match earleyRoundC pg { st with queue := { st.queue with queue := rest } } id with
      | none => .panic
      | some (st', true, c) => .returned (some id, st', c)
      | some (st', false, c) =>
        match earleyC pg fuel st' with
        | .outOfFuel => .outOfFuel
        | .panic => .panic
        | .returned (r, st'', c') => .returned (r, st'', c.plus c')

namespace TravTree

/-- `src/earley/traversal.rs` 80-83: `walkRoot`, with the number of look-ups. -/
def walkRootC (t : TravTree) : Nat → Nat → Option (Nat × Nat)
  | 0, _ => none
  | fuel + 1, cur =>
    match t.get cur with
    | none => none
    | some tr =>
      match tr.src with
      | none => some (cur, 1)
      | some e =>
        match walkRootC t fuel e.parent with
        | none => none
        | some (r, n) => some (r, n + 1)

/-- `src/earley/traversal.rs` 101-112: `scanUp`, with the number of look-ups. -/
def scanUpC (t : TravTree) (current : Nat) : Nat → Nat → Option (Option (TermMatch × Nat) × Nat)
  | 0, _ => none
  | fuel + 1, scan =>
    match t.get scan with
    | none => none
    | some tr =>
      match tr.src with
      | none => some (none, 1)
      | some e =>
        if current = e.parent then some (some (e.term, scan), 1)
        else
          match scanUpC t current fuel e.parent with
          | none => none
          | some (r, n) => some (r, n + 1)

/-- `src/earley/traversal.rs` 95-113: `collectMatches`, with the number of look-ups. -/
def collectMatchesC (t : TravTree) (last : Nat) : Nat → Nat → Option (List TermMatch × Nat)
  | 0, _ => none
  | fuel + 1, current =>
    if current = last then some ([], 0)
    else
      match t.scanUpC current (t.arena.length + 1) last with
      | none => none
      | some (none, n) => some ([], n)
      | some (some (m, current'), n) =>
        match collectMatchesC t last fuel current' with
        | none => none
        | some (ms, k) => some (m :: ms, n + k)

/-- `src/earley/traversal.rs` 137-139: `getMatched`, with the number of look-ups. -/
def getMatchedC (t : TravTree) (id : Nat) : Option (List TermMatch × Nat) :=
  match t.walkRootC (t.arena.length + 1) id with
  | none => none
  | some (root, n) =>
    match t.collectMatchesC id (t.arena.length + 1) root with
    | none => none
    | some (ms, k) => some (ms, n + k)

end TravTree

/-- `src/earley/mod.rs` 84-104: `parseTree`, with the number of look-ups. -/
def parseTreeC (t : TravTree) (pg : ParseGrammar) : Nat → Nat → Option (ParseTree × Nat)
  | 0, _ => none
  | fuel + 1, id =>
    match t.get id with
    | none => none
    | some tr =>
      match pg.prodById tr.prodId with
      | none => none
      | some prod =>
        match t.getMatchedC id with
        | none => none
        | some (ms, n) =>
          match ms.mapM (fun m => match m with
            | .terminal s => some (ParseTreeNode.terminal s, 0)
            | .nonterminal c =>
              match parseTreeC t pg fuel c with
              | none => none
              | some (pt, k) => some (ParseTreeNode.nonterminal pt.lhs pt.rhs, k)) with
          | none => none
          | some rhs => some (⟨prod.lhs, rhs.map (·.1)⟩, 1 + n + (rhs.map (·.2)).sum)

/-- `src/earley/mod.rs` 220-238: `ParseTreeIter::next` with counts. -/
def ParseTreeIter.nextC (fuel : Nat) (it : ParseTreeIter) : Outcome (Option ParseTree × ParseTreeIter × Calls) :=
  match earleyC it.parser.parseGrammar fuel it.st with
  | .outOfFuel => .outOfFuel
  | .panic => .panic
  | .returned (none, st, c) => .returned (none, { it with st := st }, c)
  | .returned (some id, st, c) =>
    match parseTreeC st.tree it.parser.parseGrammar (st.tree.arena.length + 1) id with
    | none => .panic
    | some (t, n) => .returned (some t, { it with st := st }, c.plus { gets := n })

end Bnf
