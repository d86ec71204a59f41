import Verif.Model.Text

/-!
# Sentence generation (`src/grammar.rs` 492-772, `src/generation.rs`)

A strategy is a state machine: the trait `GenerationStrategy` takes `&mut self`.  The callback is `impl Fn`, which may still have
state through interior mutability; here both act on one state `σ`, so a strategy and a callback may even share state.
The depth is a `usize`: C112 shows that it does not overflow.  Stack overflow is not modelled.
-/

set_option autoImplicit false

namespace Bnf

/-! ## `terminates` -/

/-- `matches!(t, Term::Nonterminal(_))`. -/
def Term.isNonterminal : Term → Bool
  | .nonterminal _ => true
  | .terminal _ => false

/-- `src/expression.rs` 78-98: `Expression::terminates`. -/
def Expression.terminates (e : Expression) (rules : Option (List Term)) : Bool :=
  if !e.terms.any Term.isNonterminal then true
  else match rules with
    | none => false
    | some rules => (e.terms.filter Term.isNonterminal).all fun nt => rules.contains nt

/-- `src/production.rs` 88-93. -/
def Production.hasTerminatingExpression (p : Production) (rules : Option (List Term)) : Bool :=
  p.rhs.any fun e => e.terminates rules

/-- `src/grammar.rs` 735-739: the first pass. -/
def initialRules : List Production → List Term
  | [] => []
  | p :: ps => if p.hasTerminatingExpression none then p.lhs :: initialRules ps else initialRules ps

/-- `src/grammar.rs` 750-768: one pass of the `while` loop.  Returns the rules and `is_progress`; `none` is the early
`return true`. -/
def terminatesPass (start : Term) : List Production → List Term → Bool → Option (List Term × Bool)
  | [], rules, progress => some (rules, progress)
  | p :: ps, rules, progress =>
    if rules.contains p.lhs then terminatesPass start ps rules progress
    else if p.hasTerminatingExpression (some rules) then
      if p.lhs = start then none
      else terminatesPass start ps (rules ++ [p.lhs]) true
    else terminatesPass start ps rules progress

/-- `src/grammar.rs` 747-771: the `while` loop; the first argument is fuel, `none` is out of fuel. -/
def terminatesLoop (start : Term) (ps : List Production) : Nat → List Term → Option Bool
  | 0, _ => none
  | n + 1, rules =>
    match terminatesPass start ps rules false with
    | none => some true
    | some (rules, true) => terminatesLoop start ps n rules
    | some (rules, false) => some (rules.contains start)

/-- `src/grammar.rs` 725-772: `Grammar::terminates`.  Every pass but the last adds a left-hand side, so one pass more than there
are productions suffices (proved). -/
def Grammar.terminates (g : Grammar) : Option Bool :=
  match g.startingTerm with
  | none => some true
  | some start =>
    let rules := initialRules g.productions
    if rules.isEmpty then some false
    else terminatesLoop start g.productions (g.productions.length + 1) rules

/-! ## Traversal -/

/-- What a call to `choose` does: it returns `Some(expression)`, `None`, or panics. -/
inductive Choice where
  | expr (e : Expression)
  | none
  | panic

/-- `src/generation.rs` 17-23: `trait GenerationStrategy`.  Arguments of `choose`: the state, the address of the production
(`CoverageGuided` uses the address of its left-hand side), the production, the depth. -/
structure Strategy (σ : Type) where
  choose : σ → Nat → Production → Nat → Choice × σ

/-- `f: &impl Fn(&str, &str) -> bool`. -/
abbrev Callback (σ : Type) := σ → Str → Str → Bool × σ

/-- Outcome of a generation. -/
inductive GenRes (σ : Type) where
  | fuel
  | panic
  | done (r : Except Error Str) (st : σ)

/-- `productions_iter().find(…)` for a nonterminal, with the position of the production as its address. -/
def findProduction (ident : Str) : List Production → Nat → Option (Nat × Production)
  | [], _ => none
  | p :: ps, i => if p.lhs = .nonterminal ident then some (i, p) else findProduction ident ps (i + 1)

/-- `src/grammar.rs` 522-531: `production_has_no_choice`. -/
def productionHasNoChoice (p : Production) : Bool :=
  match p.rhs with
  | [] => true
  | [only] => only.terms.isEmpty
  | _ => false

/-- "Production has no choosable alternative!" -/
def msgNoChoice : Str := "Production has no choosable alternative!".toList
/-- "Couldn't select random Expression!" -/
def msgNoExpression : Str := "Couldn't select random Expression!".toList
/-- "Can't generate, first rule in grammar doesn't lead to a terminal state" -/
def msgNonterminating : Str := "Can't generate, first rule in grammar doesn't lead to a terminal state".toList
/-- "Failed to get first production!" -/
def msgNoProduction : Str := "Failed to get first production!".toList
/-- "Terminal type cannot define a production in '…'!" -/
def msgTerminalLhs (p : Production) : Str :=
  "Terminal type cannot define a production in '".toList ++ p.display ++ "'!".toList

/-- `src/grammar.rs` 492-503 and 548-554: the loop over the terms of the chosen expression.  `trav` is
`traverse_with_strategy` at depth + 1. -/
def evalTerms {σ : Type} (trav : Str → σ → GenRes σ) : List Term → Str → σ → GenRes σ
  | [], result, st => .done (.ok result) st
  | .terminal t :: ts, result, st => evalTerms trav ts (result ++ t) st
  | .nonterminal nt :: ts, result, st =>
    match trav nt st with
    | .done (.ok s) st => evalTerms trav ts (result ++ s) st
    | .done (.error e) st => .done (.error e) st
    | .panic => .panic
    | .fuel => .fuel

/-- `src/grammar.rs` 505-560: `traverse_with_strategy`.  The fuel bounds the nesting of calls plus the repetitions of the `loop`.
The `debug_assert!` at 543-546 (the expression comes from the production) is left out here; it is modelled in `Model/Debug`, and C71 shows that
it never fails for the built-in strategies. -/
def traverse {σ : Type} (g : Grammar) (S : Strategy σ) (f : Callback σ) : Nat → Str → Nat → σ → GenRes σ
  | 0, _, _, _ => .fuel
  | n + 1, ident, depth, st =>
    match findProduction ident g.productions 0 with
    | none => .done (.ok ident) st
    | some (addr, production) =>
      if productionHasNoChoice production then .done (.error (.generateError msgNoChoice)) st
      else match S.choose st addr production depth with
        | (.panic, _) => .panic
        | (.none, st) => .done (.error (.generateError msgNoExpression)) st
        | (.expr e, st) =>
          match evalTerms (fun nt st => traverse g S f n nt (depth + 1) st) e.terms [] st with
          | .done (.ok result) st =>
            let (accepted, st) := f st ident result
            if accepted then .done (.ok result) st else traverse g S f n ident depth st
          | r => r

/-- `src/grammar.rs` 644-672: `generate_seeded_callback_with_strategy`. -/
def Grammar.generateWith {σ : Type} (g : Grammar) (S : Strategy σ) (f : Callback σ) (fuel : Nat) (st : σ) : GenRes σ :=
  match g.terminates with
  | none => .fuel
  | some false => .done (.error (.generateError msgNonterminating)) st
  | some true =>
    match g.productions with
    | p :: _ =>
      match p.lhs with
      | .nonterminal nt => traverse g S f fuel nt 0 st
      | .terminal _ => .done (.error (.generateError (msgTerminalLhs p))) st
    | [] => .done (.error (.generateError msgNoProduction)) st

/-- `src/grammar.rs` 633-638: `generate_seeded_with_strategy`. -/
def Grammar.generateSeededWithStrategy {σ : Type} (g : Grammar) (S : Strategy σ) (fuel : Nat) (st : σ) : GenRes σ :=
  g.generateWith S (fun st _ _ => (true, st)) fuel st

/-! ## Random numbers and strategies -/

/-- `StdRng`, abstractly.  `index r n` is `rng.random_range(0..n)` for `usize`, `u32 r n` the same for `u32`; both panic for
`n = 0` (the callers below check). `fill` is `rng.fill(&mut seed)`, `fromSeed` is `StdRng::from_seed`. -/
structure Rng (ρ Seed : Type) where
  index : ρ → Nat → Nat × ρ
  u32 : ρ → Nat → Nat × ρ
  fill : ρ → Seed × ρ
  fromSeed : Seed → ρ
  index_lt : ∀ r n, 0 < n → (index r n).1 < n
  u32_lt : ∀ r n, 0 < n → (u32 r n).1 < n

variable {ρ Seed : Type}

/-- `src/generation.rs` 127-129: `random_index`.  `none` is a panic (empty range). -/
def randomIndex (R : Rng ρ Seed) (rng : ρ) (len : Nat) : Option Nat × ρ :=
  if len = 0 then (none, rng) else (some (R.index rng len).1, (R.index rng len).2)

/-- `production.get_expression(idx)` (`src/production.rs` 81-83). -/
def getExpression (p : Production) (idx : Nat) : Choice :=
  match p.rhs[idx]? with
  | some e => .expr e
  | none => .none

/-- `src/generation.rs` 52-58: `RandomWalk`. The `debug_assert!` (a panic for an empty production in debug builds) coincides with the
panic of `random_range`. -/
def RandomWalk (R : Rng ρ Seed) : Strategy ρ where
  choose rng _ production _ :=
    match randomIndex R rng production.rhs.length with
    | (none, rng) => (.panic, rng)
    | (some idx, rng) => (getExpression production idx, rng)

/-- `src/generation.rs` 97-101: `expression_all_terminals`. -/
def expressionAllTerminals (e : Expression) : Bool := e.terms.all fun t => !t.isNonterminal

/-- `src/generation.rs` 107-114 and 186-190: the positions (from `i` on) of the elements for which `ok` holds. -/
def indicesWhere {α : Type} (ok : Nat → α → Bool) : List α → Nat → List Nat
  | [], _ => []
  | a :: as, i => if ok i a then i :: indicesWhere ok as (i + 1) else indicesWhere ok as (i + 1)

/-- The common end of `fill_eligible_and_choose_index` (`src/generation.rs` 116-123) and `fill_uncovered_and_choose_index`
(191-198): pick from the buffer, or any index if it is empty. `none` is a panic. -/
def pickFrom (R : Rng ρ Seed) (rng : ρ) (buf : List Nat) (len : Nat) : Option Nat × ρ :=
  if buf.isEmpty then randomIndex R rng len
  else match randomIndex R rng buf.length with
    | (none, rng) => (none, rng)
    | (some k, rng) => (buf[k]?, rng)

/-- `src/generation.rs` 105-138: `DepthBounded`. -/
def DepthBounded (R : Rng ρ Seed) (maxDepth : Nat) : Strategy ρ where
  choose rng _ production depth :=
    let eligible := if maxDepth ≤ depth then indicesWhere (fun _ e => expressionAllTerminals e) production.rhs 0
      else List.range production.rhs.length
    match pickFrom R rng eligible production.rhs.length with
    | (none, rng) => (.panic, rng)
    | (some idx, rng) => (getExpression production idx, rng)

/-- `src/generation.rs` 182-208: `CoverageGuided`.  State: `seen` as a list of (address, index), and the random source. -/
def CoverageGuided (R : Rng ρ Seed) : Strategy (List (Nat × Nat) × ρ) where
  choose st addr production _ :=
    let uncovered := (List.range production.rhs.length).filter fun i => !st.1.contains (addr, i)
    match pickFrom R st.2 uncovered production.rhs.length with
    | (none, rng) => (.panic, (st.1, rng))
    | (some idx, rng) => (getExpression production idx, ((addr, idx) :: st.1, rng))

/-- `src/generation.rs` 258-260: `expression_contains_nonterminal`. -/
def expressionContains (e : Expression) (t : Term) : Bool := e.terms.any fun x => x == t

/-- `src/generation.rs` 263-274: `fill_weights`. -/
def fillWeights (recursiveWeight nonRecursiveWeight : Nat) (p : Production) : List Nat :=
  p.rhs.map fun e => if expressionContains e p.lhs then recursiveWeight else nonRecursiveWeight

/-- `src/generation.rs` 278, `weights.iter().sum()` in `u32`: with overflow checks (debug builds) `none` is a panic, otherwise
the sum wraps. -/
def sumU32 (checked : Bool) (weights : List Nat) : Option Nat :=
  if weights.sum < 2 ^ 32 then some weights.sum else if checked then none else some (weights.sum % 2 ^ 32)

/-- `src/generation.rs` 283-288: the selection loop. -/
def selectLoop : List Nat → Nat → Nat → Option Nat
  | [], _, _ => none
  | w :: ws, r, i => if r < w then some i else selectLoop ws (r - w) (i + 1)

/-- `src/generation.rs` 277-290: `weighted_random_index`. -/
def weightedRandomIndex (R : Rng ρ Seed) (checked : Bool) (rng : ρ) (weights : List Nat) (fallbackLen : Nat) : Option Nat × ρ :=
  match sumU32 checked weights with
  | none => (none, rng)
  | some total =>
    if total = 0 then randomIndex R rng fallbackLen
    else
      let (r, rng) := R.u32 rng total
      match selectLoop weights r 0 with
      | some i => (some i, rng)
      | none => (some (weights.length - 1), rng)

/-- `src/generation.rs` 258-300: `Weighted`.  `checked`: overflow checks are on. -/
def Weighted (R : Rng ρ Seed) (checked : Bool) (recursiveWeight nonRecursiveWeight : Nat) : Strategy ρ where
  choose rng _ production _ :=
    match weightedRandomIndex R checked rng (fillWeights recursiveWeight nonRecursiveWeight production) production.rhs.length with
    | (none, rng) => (.panic, rng)
    | (some idx, rng) => (getExpression production idx, rng)

/-- `src/grammar.rs` 618-627: `generate_seeded_callback`.  Returns the outcome and the caller's random source. -/
def Grammar.generateSeededCallback {τ : Type} (g : Grammar) (R : Rng ρ Seed) (f : τ → Str → Str → Bool × τ) (fuel : Nat) (rng : ρ)
    (cb : τ) : GenRes (ρ × τ) × ρ :=
  let (seed, rng) := R.fill rng
  (g.generateWith ⟨fun st a p d => let (c, r) := (RandomWalk R).choose st.1 a p d; (c, (r, st.2))⟩
    (fun st n t => let (b, c) := f st.2 n t; (b, (st.1, c))) fuel (R.fromSeed seed, cb), rng)

/-- `src/grammar.rs` 595-600: `generate_seeded`. -/
def Grammar.generateSeeded (g : Grammar) (R : Rng ρ Seed) (fuel : Nat) (rng : ρ) : GenRes ρ × ρ :=
  let (seed, rng) := R.fill rng
  (g.generateSeededWithStrategy (RandomWalk R) fuel (R.fromSeed seed), rng)

/-- `src/grammar.rs` 714-720: `generate_callback`; `seed` is what the system's random source fills in. -/
def Grammar.generateCallback {τ : Type} (g : Grammar) (R : Rng ρ Seed) (f : τ → Str → Str → Bool × τ) (fuel : Nat) (seed : Seed)
    (cb : τ) : GenRes (ρ × τ) :=
  (g.generateSeededCallback R f fuel (R.fromSeed seed) cb).1

/-- `src/grammar.rs` 695-697: `generate`. -/
def Grammar.generate (g : Grammar) (R : Rng ρ Seed) (fuel : Nat) (seed : Seed) : GenRes (ρ × Unit) :=
  g.generateCallback R (fun _ _ _ => (true, ())) fuel seed ()

end Bnf
