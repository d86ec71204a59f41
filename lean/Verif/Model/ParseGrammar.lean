import Verif.Model.Basic

/-!
# `ParseGrammar`, validation and `GrammarParser` construction
-/

namespace Bnf

/-- `src/parser/grammar.rs` 9-14: the parser's one-alternative `Production`. -/
structure FlatProd where
  id : Nat
  lhs : Term
  rhs : Expression
  deriving DecidableEq, Repr

/-- `src/parser/grammar.rs` 19-24: `ParseGrammar`; the arena (`src/append_vec.rs` 27-66) is a list whose
index is the id. -/
structure ParseGrammar where
  productions : List FlatProd
  prodsByLhs : AMap Term (List Nat)
  deriving Repr

/-- `src/parser/grammar.rs` 43-45 (and 82-84): `flat_prod_iter`. -/
def Grammar.flatProds (g : Grammar) : List (Term × Expression) :=
  g.productions.flatMap fun p => p.rhs.map fun e => (p.lhs, e)

/-- `src/parser/grammar.rs` 56-58 (and 87-89): push one production into the arena and the index. -/
def ParseGrammar.pushProd (pg : ParseGrammar) (lhs : Term) (rhs : Expression) : ParseGrammar :=
  let id := pg.productions.length
  { productions := pg.productions ++ [⟨id, lhs, rhs⟩]
    prodsByLhs := pg.prodsByLhs.set lhs ((pg.prodsByLhs.get lhs).getD [] ++ [id]) }

/-- `src/parser/grammar.rs` 76-96: `ParseGrammar::new_unchecked`. -/
def ParseGrammar.newUnchecked (g : Grammar) : ParseGrammar :=
  g.flatProds.foldl (fun pg x => pg.pushProd x.1 x.2) ⟨[], []⟩

/-- `src/validation.rs` 6-10: `NonterminalSets`; sets as duplicate-free lists. -/
structure NonterminalSets where
  defined : List Str
  referenced : List Str
  deriving Repr

/-- `HashSet::insert`. -/
def setInsert {α : Type} [DecidableEq α] (l : List α) (a : α) : List α :=
  if a ∈ l then l else l ++ [a]

/-- `src/validation.rs` 20-22 with the `if let Nonterminal` around its calls. -/
def NonterminalSets.recordLhs (s : NonterminalSets) : Term → NonterminalSets
  | .nonterminal n => { s with defined := setInsert s.defined n }
  | .terminal _ => s

/-- `src/validation.rs` 24-26 with the `if let Nonterminal` around its calls. -/
def NonterminalSets.recordRhs (s : NonterminalSets) : Term → NonterminalSets
  | .nonterminal n => { s with referenced := setInsert s.referenced n }
  | .terminal _ => s

/-- `src/validation.rs` 35-37: the elements of `referenced − defined`.  The iteration order of
a hash set is unspecified: `ord` is applied to the elements (any permutation). -/
def NonterminalSets.undefined (s : NonterminalSets) (ord : List Str → List Str) : List Str :=
  ord (s.referenced.filter fun n => n ∉ s.defined)

/-- `format!("Undefined nonterminals: <{undefined}>")`, `src/parser/grammar.rs` 62, `src/grammar.rs` 397. -/
def undefinedMsg (n : Str) : Str := "Undefined nonterminals: <".toList ++ n ++ ">".toList

/-- `"Grammar must have at least one production"`, `src/grammar.rs` 379, `src/parser/mod.rs` 45. -/
def emptyGrammarMsg : Str := "Grammar must have at least one production".toList

/-- One round of the loop of `src/parser/grammar.rs` 47-59: record the names, push the production. -/
def ParseGrammar.newStep (acc : ParseGrammar × NonterminalSets) (x : Term × Expression) :
    ParseGrammar × NonterminalSets :=
  (acc.1.pushProd x.1 x.2, x.2.terms.foldl NonterminalSets.recordRhs (acc.2.recordLhs x.1))

/-- `src/parser/grammar.rs` 34-70: `ParseGrammar::new`. -/
def ParseGrammar.new (ord : List Str → List Str) (g : Grammar) : Except Error ParseGrammar :=
  let r := g.flatProds.foldl ParseGrammar.newStep (⟨[], []⟩, ⟨[], []⟩)
  match r.2.undefined ord with
  | n :: _ => .error (.validationError (undefinedMsg n))
  | [] => .ok r.1

/-- `src/parser/grammar.rs` 98-100: `get_production_by_id`; `none` is the panic of `expect`. -/
def ParseGrammar.prodById (pg : ParseGrammar) (id : Nat) : Option FlatProd := pg.productions[id]?

/-- `src/parser/grammar.rs` 101-110: `get_productions_by_lhs`; `none` is the panic of the `expect` in
`get_production_by_id`. -/
def ParseGrammar.prodsFor (pg : ParseGrammar) (lhs : Term) : Option (List FlatProd) :=
  ((pg.prodsByLhs.get lhs).getD []).mapM pg.prodById

/-- `src/grammar.rs` 376-401: `Grammar::validate`. -/
def Grammar.validate (ord : List Str → List Str) (g : Grammar) : Except Error Unit :=
  if g.productions.isEmpty then .error (.validationError emptyGrammarMsg)
  else
    let sets := g.productions.foldl
      (fun s p => p.rhs.foldl (fun s e => e.terms.foldl NonterminalSets.recordRhs s) (s.recordLhs p.lhs))
      ⟨[], []⟩
    match sets.undefined ord with
    | n :: _ => .error (.validationError (undefinedMsg n))
    | [] => .ok ()

/-- `src/parser/mod.rs` 28-32: `GrammarParser`. -/
structure GrammarParser where
  startingTerm : Term
  parseGrammar : ParseGrammar
  deriving Repr

/-- `src/parser/mod.rs` 42-52 and `src/grammar.rs` 427-429: `GrammarParser::new` / `build_parser`. -/
def Grammar.buildParser (ord : List Str → List Str) (g : Grammar) : Except Error GrammarParser :=
  match g.startingTerm with
  | none => .error (.validationError emptyGrammarMsg)
  | some t =>
    match ParseGrammar.new ord g with
    | .error e => .error e
    | .ok pg => .ok ⟨t, pg⟩

/-- `src/parser/mod.rs` 56-66: `GrammarParser::new_unchecked`; `none` is the panic of `expect`. -/
def Grammar.newUnchecked (g : Grammar) : Option GrammarParser :=
  match g.startingTerm with
  | none => none
  | some t => some ⟨t, ParseGrammar.newUnchecked g⟩

end Bnf
