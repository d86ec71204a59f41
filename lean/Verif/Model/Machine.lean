import Verif.Model.Earley
import Verif.Model.Display
import Verif.Model.Generate

/-!
# The same functions with bounded integers

Elsewhere `usize` is modelled by unbounded natural numbers.  Here are once more the functions that add or count in `usize`, with numbers up to `max`
(`usize::MAX`) only: every addition that the code makes is checked, and one that exceeds `max` (a panic in debug builds, a wrong number in release
builds) is an explicit failure.  That the failures never happen as long as the data fit into memory is C112.  (Additions of `u32` weights do
overflow: they are checked in `Model/Generate`.)
-/

set_option autoImplicit false

namespace Bnf
open Nom

/-- `a + b` in `usize`; `none` is the overflow. -/
def addW (max a b : Nat) : Option Nat := if a + b ≤ max then some (a + b) else none

/-! ## Parsing an input -/

namespace InputRange

/-- `src/earley/input_range.rs` 8-10: `total_len`. -/
def totalLenW (max : Nat) (r : InputRange) : Option Nat := addW max r.start r.len

/-- `src/earley/input_range.rs` 29-32: `next`. -/
def nextW (max : Nat) (r : InputRange) : Option Str := (addW max r.start r.len).map fun i => (getFrom r.input i).getD []

/-- `src/earley/input_range.rs` 33-41: `after`. -/
def afterW (max : Nat) (r : InputRange) : Option InputRange := (addW max r.start r.len).map fun i => ⟨r.input, i, 0⟩

/-- `src/earley/input_range.rs` 43-51: `advance_by`. -/
def advanceByW (max : Nat) (r : InputRange) (step : Nat) : Option InputRange :=
  if byteLen r.input < r.start then none
  else (addW max r.len step).map fun l => ⟨r.input, r.start, min l (byteLen r.input - r.start)⟩

end InputRange

namespace TravTree

/-- `src/earley/traversal.rs` 140-182: `_predict` and its callers. -/
def predictW (max : Nat) (t : TravTree) (range : InputRange) (p : FlatProd) (isStarting : Bool) : Option (Nat × TravTree) :=
  match range.totalLenW max with
  | none => none
  | some total =>
    match t.roots.get (p.id, total) with
    | some id => some (id, t)
    | none =>
      match range.afterW max with
      | none => none
      | some range =>
        let id := t.arena.length
        some (id, { t with
          arena := t.arena ++ [⟨id, p.rhs.terms, range, p.id, isStarting, none⟩]
          roots := t.roots.set (p.id, total) id })

/-- `src/earley/traversal.rs` 186-198: the range of the extended traversal. -/
def matchRangeW (max : Nat) (t : TravTree) (parent : Traversal) : TermMatch → Option InputRange
  | .terminal s => parent.range.advanceByW max (byteLen s)
  | .nonterminal c =>
    match t.get c with
    | none => none
    | some tc => parent.range.advanceByW max tc.range.len

/-- `src/earley/traversal.rs` 183-220: `match_term`. -/
def matchTermW (max : Nat) (t : TravTree) (parentId : Nat) (m : TermMatch) : Option (Nat × TravTree) :=
  match t.get parentId with
  | none => none
  | some parent =>
    match t.matchRangeW max parent m with
    | none => none
    | some range =>
      match parent.unmatched with
      | [] => none
      | _ :: unmatched =>
        let src : Edge := ⟨m, parent.id⟩
        match t.edges.get src with
        | some id => some (id, t)
        | none =>
          let id := t.arena.length
          some (id, { t with
            arena := t.arena ++ [⟨id, unmatched, range, parent.prodId, parent.isStarting, some src⟩]
            edges := t.edges.set src id })

end TravTree

namespace CompletionMap

/-- `src/earley/mod.rs` 298-306 with 253-258: `get_complete`. -/
def getCompleteW (max : Nat) (c : CompletionMap) (term : Term) (range : InputRange) : Option (List Nat) :=
  (range.totalLenW max).map fun i => (c.complete.get (term, i)).getD []

/-- `src/earley/mod.rs` 307-322: `insert`. -/
def insertW (max : Nat) (c : CompletionMap) (tr : Traversal) (lhs : Term) : Option CompletionMap :=
  match tr.nextUnmatched with
  | some (.terminal _) => some c
  | some (.nonterminal n) =>
    (tr.range.totalLenW max).map fun i =>
      let key := (Term.nonterminal n, i)
      { c with incomplete := c.incomplete.set key (sortedVecInsert ((c.incomplete.get key).getD []) tr.id) }
  | none =>
    let key := (lhs, tr.range.start)
    some { c with complete := c.complete.set key (sortedVecInsert ((c.complete.get key).getD []) tr.id) }

end CompletionMap

/-- `src/earley/mod.rs` 133-137 and 76-79: the loops predicting productions. -/
def predictAllW (max : Nat) (range : InputRange) (isStarting : Bool) :
    List FlatProd → TravTree → TravQueue → Option (TravTree × TravQueue)
  | [], t, q => some (t, q)
  | p :: ps, t, q =>
    match t.predictW max range p isStarting with
    | none => none
    | some (id, t') => predictAllW max range isStarting ps t' (q.pushBack id)

/-- `src/earley/mod.rs` 139-144, 150-152 and 164-170: the loops matching terms. -/
def matchAllW (max : Nat) : List (Nat × TermMatch) → TravTree → TravQueue → Option (TravTree × TravQueue)
  | [], t, q => some (t, q)
  | (parent, m) :: rest, t, q =>
    match t.matchTermW max parent m with
    | none => none
    | some (id, t') => matchAllW max rest t' (q.pushBack id)

/-- `src/earley/mod.rs` 115-177: one round. -/
def earleyRoundW (max : Nat) (pg : ParseGrammar) (st : PState) (id : Nat) : Option (PState × Bool) :=
  match st.tree.get id with
  | none => none
  | some tr =>
    match tr.nextUnmatched with
    | some (.nonterminal n) =>
      match pg.prodById tr.prodId with
      | none => none
      | some prod =>
        match st.completions.insertW max tr prod.lhs with
        | none => none
        | some completions =>
          match pg.prodsFor (.nonterminal n) with
          | none => none
          | some prods =>
            match predictAllW max tr.range false prods st.tree st.queue with
            | none => none
            | some r =>
              match completions.getCompleteW max (.nonterminal n) tr.range with
              | none => none
              | some done =>
                match matchAllW max (done.map fun c => (id, TermMatch.nonterminal c)) r.1 r.2 with
                | none => none
                | some (tree, queue) => some (⟨tree, queue, completions⟩, false)
    | some (.terminal s) =>
      match tr.range.nextW max with
      | none => none
      | some rest =>
        if startsWith rest s then
          match matchAllW max [(id, TermMatch.terminal s)] st.tree st.queue with
          | none => none
          | some (tree, queue) => some (⟨tree, queue, st.completions⟩, false)
        else some (st, false)
    | none =>
      let isFull := tr.isStarting && tr.range.isComplete
      match pg.prodById tr.prodId with
      | none => none
      | some prod =>
        match st.completions.insertW max tr prod.lhs with
        | none => none
        | some completions =>
          match matchAllW max ((completions.getIncomplete prod.lhs tr).map
              fun i => (i, TermMatch.nonterminal id)) st.tree st.queue with
          | none => none
          | some (tree, queue) => some (⟨tree, queue, completions⟩, isFull)

/-- `src/earley/mod.rs` 108-180: `earley`. -/
def earleyW (max : Nat) (pg : ParseGrammar) : Nat → PState → Outcome (Option Nat × PState)
  | 0, _ => .outOfFuel
  | fuel + 1, st =>
    match st.queue.queue with
    | [] => .returned (none, st)
    | id :: rest =>
      match earleyRoundW max pg { st with queue := { st.queue with queue := rest } } id with
      | none => .panic
      | some (st', true) => .returned (some id, st')
      | some (st', false) => earleyW max pg fuel st'

/-- `src/earley/mod.rs` 190-218 with 69-80: `ParseTreeIter::new`. -/
def ParseTreeIter.newW (max : Nat) (parser : GrammarParser) (input : Str) (start : Option Term) : Option ParseTreeIter :=
  match parser.parseGrammar.prodsFor (start.getD parser.startingTerm) with
  | none => none
  | some prods =>
    match predictAllW max (InputRange.new input) true prods ⟨[], [], []⟩ ⟨[], []⟩ with
    | none => none
    | some r => some ⟨parser, ⟨r.1, r.2, ⟨[], []⟩⟩⟩

/-- `src/earley/mod.rs` 220-238: `ParseTreeIter::next`; reading a tree (84-104) adds nothing. -/
def ParseTreeIter.nextW (max fuel : Nat) (it : ParseTreeIter) : Outcome (Option ParseTree × ParseTreeIter) :=
  match earleyW max it.parser.parseGrammar fuel it.st with
  | .outOfFuel => .outOfFuel
  | .panic => .panic
  | .returned (none, st) => .returned (none, { it with st := st })
  | .returned (some id, st) =>
    match parseTree st.tree it.parser.parseGrammar (st.tree.arena.length + 1) id with
    | none => .panic
    | some t => .returned (some t, { it with st := st })

/-! ## Reading a grammar text -/

/-- `src/parsers/mod.rs` 413-420: the loop of `fresh_anon_name`. -/
def freshLoopW (max : Nat) (used : List Str) : Nat → Nat → Option (Str × Nat)
  | 0, _ => none
  | n + 1, counter =>
    let candidate := anonName counter
    match addW max counter 1 with
    | none => none
    | some counter => if candidate ∈ used then freshLoopW max used n counter else some (candidate, counter)

/-- `src/parsers/mod.rs` 412-421: `fresh_anon_name`. -/
def freshAnonNameW (max : Nat) (st : NormState) : Option (Str × NormState) :=
  match freshLoopW max st.used (st.used.length + 1) st.counter with
  | none => none
  | some (nm, c) => some (nm, { st with used := nm :: st.used, counter := c })

mutual

/-- `src/parsers/mod.rs` 437-476: `lower_term`. -/
def lowerTermW (max : Nat) : ParsedTerm → NormState → Option (Term × NormState)
  | .simple t, st => some (t, st)
  | .group exprs, st =>
    match freshAnonNameW max st with
    | none => none
    | some (name, st) =>
      match lowerAltsW max exprs st with
      | none => none
      | some (rhs, st) =>
        let rhs := if rhs.isEmpty then [emptyAlt] else rhs
        some (.nonterminal name, { st with anon := st.anon ++ [⟨.nonterminal name, rhs⟩] })
  | .optional exprs, st =>
    match freshAnonNameW max st with
    | none => none
    | some (name, st) =>
      match lowerAltsW max exprs st with
      | none => none
      | some (rhs, st) =>
        some (.nonterminal name, { st with anon := st.anon ++ [⟨.nonterminal name, rhs ++ [emptyAlt]⟩] })

/-- `src/parsers/mod.rs` 430-433: the terms of an expression. -/
def lowerTermsW (max : Nat) : List ParsedTerm → NormState → Option (List Term × NormState)
  | [], st => some ([], st)
  | t :: ts, st =>
    match lowerTermW max t st with
    | none => none
    | some (t', st) =>
      match lowerTermsW max ts st with
      | none => none
      | some (ts', st) => some (t' :: ts', st)

/-- `src/parsers/mod.rs` 447-450, 463-466 and 483-486: alternatives. -/
def lowerAltsW (max : Nat) : List (List ParsedTerm) → NormState → Option (List Expression × NormState)
  | [], st => some ([], st)
  | e :: es, st =>
    match lowerTermsW max e st with
    | none => none
    | some (e', st) =>
      match lowerAltsW max es st with
      | none => none
      | some (es', st) => some (⟨e'⟩ :: es', st)

end

/-- `src/parsers/mod.rs` 480-488: the loop over the productions. -/
def lowerProdsW (max : Nat) : ParsedGrammar → NormState → Option (List Production × NormState)
  | [], st => some ([], st)
  | p :: ps, st =>
    match lowerAltsW max p.rhs st with
    | none => none
    | some (rhs, st) =>
      match lowerProdsW max ps st with
      | none => none
      | some (ps', st) => some (⟨.nonterminal p.lhs, rhs⟩ :: ps', st)

/-- `src/parsers/mod.rs` 401-492: `normalize_parsed_grammar`. -/
def normalizeParsedGrammarW (max : Nat) (g : ParsedGrammar) : Option Grammar :=
  match lowerProdsW max g ⟨g.map (·.lhs), 0, []⟩ with
  | none => none
  | some (out, st) => some ⟨out ++ st.anon⟩

/-- `src/parsers/mod.rs` 253-262: `grammar_complete`, and `parse_from`, `src/grammar.rs` 333-339.  Overflow is `none`, like lack of fuel. -/
def Grammar.parseFromW (max : Nat) (F : Format) (s : Str) : Option (Except Error Grammar) :=
  let n := s.length + 1
  let extended : Res Grammar :=
    (parsedGrammarComplete F n s).andThen fun s parsed =>
      match normalizeParsedGrammarW max parsed with
      | none => .fuel
      | some g => .ok s g
  (if grammarHasExtendedSyntax s then extended
  else match allConsuming (plainGrammar F n) s with
    | .ok s g => .ok s g
    | .err => extended
    | .fuel => .fuel).toResult

/-! ## Printing trees -/

/-- `src/grammar.rs` 125-152: `fmt_node_prefix`, the columns from `idx` on; `rest` is `depth - idx`. -/
def fmtColumnsW (max : Nat) (set : FormatSet) (isLast : Bool) : Nat → Nat → Option Str
  | 0, _ => some []
  | rest + 1, idx =>
    match addW max idx 1 with
    | none => none
    | some next =>
      (fmtColumnsW max set isLast rest next).map fun more =>
        (if next = idx + 1 + rest then (if isLast then ['└', '─', '─', ' '] else ['├', '─', '─', ' '])
        else if set.contains idx then ['│', ' ', ' ', ' '] else [' ', ' ', ' ', ' ']) ++ more

mutual
/-- `src/grammar.rs` 76-123: `ParseTree::fmt`. -/
def fmtNodeW (max : Nat) : ParseTreeNode → FormatSet → Nat → Bool → Option (Str × FormatSet)
  | .terminal t, set, depth, isLast =>
    (fmtColumnsW max set isLast depth 0).map fun p => (p ++ ['"'] ++ t ++ ['"', '\n'], set)
  | .nonterminal lhs rhs, set, depth, isLast =>
    let set := set.insert depth
    match fmtColumnsW max set isLast depth 0 with
    | none => none
    | some p =>
      let line := p ++ lhs.display ++ [' ', ':', ':', '='] ++ fmtRhs rhs ++ ['\n']
      match addW max depth 1 with
      | none => none
      | some childDepth =>
        match fmtChildrenW max rhs set depth childDepth with
        | none => none
        | some (text, set) => some (line ++ text, set)

/-- `src/grammar.rs` 105-119: the loop over the children. -/
def fmtChildrenW (max : Nat) : List ParseTreeNode → FormatSet → Nat → Nat → Option (Str × FormatSet)
  | [], set, _, _ => some ([], set)
  | child :: rest, set, depth, childDepth =>
    let isLast := rest.isEmpty
    let set := if isLast then set.remove depth else set
    match fmtNodeW max child set childDepth isLast with
    | none => none
    | some (text, set) =>
      match fmtChildrenW max rest set depth childDepth with
      | none => none
      | some (texts, set) => some (text ++ texts, set)
end

/-- `src/grammar.rs` 185-190: `Display for ParseTree`. -/
def ParseTree.displayW (max : Nat) (t : ParseTree) : Option Str :=
  (fmtNodeW max (.nonterminal t.lhs t.rhs) [] 0 true).map Prod.fst

mutual
/-- `src/grammar.rs` 220-271: `MermaidParseTree::fmt`. -/
def mermaidTreeW (max : Nat) : Term → List ParseTreeNode → Nat → Option (Str × Nat)
  | .terminal _, _, _ => none
  | .nonterminal lhs, rhs, count =>
    let header : Str := if count = 0 then ['f', 'l', 'o', 'w', 'c', 'h', 'a', 'r', 't', ' ', 'T', 'D', '\n'] else []
    match mermaidChildrenW max rhs (escapeMermaidLabel lhs) count count with
    | none => none
    | some (text, count) => some (header ++ text, count)

/-- `src/grammar.rs` 233-268: the loop over the right-hand side. -/
def mermaidChildrenW (max : Nat) : List ParseTreeNode → Str → Nat → Nat → Option (Str × Nat)
  | [], _, _, count => some ([], count)
  | .terminal t :: ns, lhs, lhsCount, count =>
    match addW max count 1 with
    | none => none
    | some count =>
      match mermaidChildrenW max ns lhs lhsCount count with
      | none => none
      | some (text, count') => some (mermaidEdge lhsCount lhs count (escapeMermaidLabel t) ++ text, count')
  | .nonterminal (.terminal _) _ :: _, _, _, _ => none
  | .nonterminal (.nonterminal n) rhs :: ns, lhs, lhsCount, count =>
    match addW max count 1 with
    | none => none
    | some count =>
      match mermaidTreeW max (.nonterminal n) rhs count with
      | none => none
      | some (inner, count') =>
        match mermaidChildrenW max ns lhs lhsCount count' with
        | none => none
        | some (text, count'') => some (mermaidEdge lhsCount lhs count (escapeMermaidLabel n) ++ inner ++ text, count'')
end

/-- `src/grammar.rs` 168-170 and 274-279: `mermaid().to_string()`. -/
def ParseTree.mermaidW (max : Nat) (t : ParseTree) : Option Str := (mermaidTreeW max t.lhs t.rhs 0).map Prod.fst

/-! ## Generating -/

/-- `src/grammar.rs` 492-503 and 548-554: the terms of the chosen expression; `depth + 1` (500) is computed for each nonterminal. -/
def evalTermsW {σ : Type} (max depth : Nat) (trav : Nat → Str → σ → GenRes σ) : List Term → Str → σ → GenRes σ
  | [], result, st => .done (.ok result) st
  | .terminal t :: ts, result, st => evalTermsW max depth trav ts (result ++ t) st
  | .nonterminal nt :: ts, result, st =>
    match addW max depth 1 with
    | none => .panic
    | some below =>
      match trav below nt st with
      | .done (.ok s) st => evalTermsW max depth trav ts (result ++ s) st
      | .done (.error e) st => .done (.error e) st
      | .panic => .panic
      | .fuel => .fuel

/-- `src/grammar.rs` 505-560: `traverse_with_strategy`. -/
def traverseW {σ : Type} (max : Nat) (g : Grammar) (S : Strategy σ) (f : Callback σ) : Nat → Str → Nat → σ → GenRes σ
  | 0, _, _, _ => .fuel
  | n + 1, ident, depth, st =>
    match findProduction ident g.productions 0 with
    | none => .done (.ok ident) st
    | some (addr, production) =>
      if productionHasNoChoice production then .done (.error (.generateError msgNoChoice)) st
      else match S.choose st addr production depth with
        | (.panic, _) => .panic
        | (.none, st) => .done (.error (.generateError msgNoExpression)) st
        | (.expr e, st) =>
          match evalTermsW max depth (fun below nt st => traverseW max g S f n nt below st) e.terms [] st with
          | .done (.ok result) st =>
            let (accepted, st) := f st ident result
            if accepted then .done (.ok result) st else traverseW max g S f n ident depth st
          | r => r

/-- `src/grammar.rs` 644-672: `generate_seeded_callback_with_strategy`. -/
def Grammar.generateWithW {σ : Type} (max : Nat) (g : Grammar) (S : Strategy σ) (f : Callback σ) (fuel : Nat) (st : σ) : GenRes σ :=
  match g.terminates with
  | none => .fuel
  | some false => .done (.error (.generateError msgNonterminating)) st
  | some true =>
    match g.productions with
    | p :: _ =>
      match p.lhs with
      | .nonterminal nt => traverseW max g S f fuel nt 0 st
      | .terminal _ => .done (.error (.generateError (msgTerminalLhs p))) st
    | [] => .done (.error (.generateError msgNoProduction)) st

end Bnf
