import Verif.Model.Generate

/-!
# Debug builds: the assertion in `traverse_with_strategy`

`debug_assert!(production.rhs_iter().any(|e| std::ptr::eq(e, expression)))` (`src/grammar.rs` 543-546) compares addresses, so here
a strategy returns a reference: to an alternative of the production it was given, or to some other expression (which may be equal
to one of the alternatives).
-/

set_option autoImplicit false

namespace Bnf

/-- What `choose` returns, with references told apart: the `i`-th alternative of the production, an expression at another address, `None`,
or a panic. -/
inductive Pick (p : Production) where
  | own (i : Fin p.rhs.length)
  | foreign (e : Expression)
  | none
  | panic

/-- `src/generation.rs` 17-23: `trait GenerationStrategy`, with references. -/
structure RefStrategy (σ : Type) where
  choose : σ → Nat → (p : Production) → Nat → Pick p × σ

/-- The expression behind the reference. -/
def Pick.value {p : Production} : Pick p → Choice
  | .own i => .expr p.rhs[i]
  | .foreign e => .expr e
  | .none => .none
  | .panic => .panic

/-- The strategy as `Model.Generate` sees it. -/
def RefStrategy.values {σ : Type} (S : RefStrategy σ) : Strategy σ where
  choose st a p d := ((S.choose st a p d).1.value, (S.choose st a p d).2)

/-- `src/grammar.rs` 505-560: `traverse_with_strategy` in a debug build: a foreign reference makes the assertion at 543-546 panic. -/
def traverseDebug {σ : Type} (g : Grammar) (S : RefStrategy σ) (f : Callback σ) : Nat → Str → Nat → σ → GenRes σ
  | 0, _, _, _ => .fuel
  | n + 1, ident, depth, st =>
    match findProduction ident g.productions 0 with
    | none => .done (.ok ident) st
    | some (addr, production) =>
      if productionHasNoChoice production then .done (.error (.generateError msgNoChoice)) st
      else match S.choose st addr production depth with
        | (.panic, _) => .panic
        | (.none, st) => .done (.error (.generateError msgNoExpression)) st
        | (.foreign _, _) => .panic
        | (.own i, st) =>
          match evalTerms (fun nt st => traverseDebug g S f n nt (depth + 1) st) production.rhs[i].terms [] st with
          | .done (.ok result) st =>
            let (accepted, st) := f st ident result
            if accepted then .done (.ok result) st else traverseDebug g S f n ident depth st
          | r => r

/-- `src/grammar.rs` 644-672: `generate_seeded_callback_with_strategy` in a debug build. -/
def Grammar.generateWithDebug {σ : Type} (g : Grammar) (S : RefStrategy σ) (f : Callback σ) (fuel : Nat) (st : σ) : GenRes σ :=
  match g.terminates with
  | none => .fuel
  | some false => .done (.error (.generateError msgNonterminating)) st
  | some true =>
    match g.productions with
    | p :: _ =>
      match p.lhs with
      | .nonterminal nt => traverseDebug g S f fuel nt 0 st
      | .terminal _ => .done (.error (.generateError (msgTerminalLhs p))) st
    | [] => .done (.error (.generateError msgNoProduction)) st

/-- `src/production.rs` 81-83: `get_expression`, which returns a reference to the alternative in the production. -/
def getExpressionRef (p : Production) (idx : Nat) : Pick p :=
  if h : idx < p.rhs.length then .own ⟨idx, h⟩ else .none

variable {ρ Seed : Type}

/-- `src/generation.rs` 52-58: `RandomWalk`. -/
def RandomWalkRef (R : Rng ρ Seed) : RefStrategy ρ where
  choose rng _ production _ :=
    match randomIndex R rng production.rhs.length with
    | (none, rng) => (.panic, rng)
    | (some idx, rng) => (getExpressionRef production idx, rng)

/-- `src/generation.rs` 105-138: `DepthBounded`. -/
def DepthBoundedRef (R : Rng ρ Seed) (maxDepth : Nat) : RefStrategy ρ where
  choose rng _ production depth :=
    let eligible := if maxDepth ≤ depth then indicesWhere (fun _ e => expressionAllTerminals e) production.rhs 0
      else List.range production.rhs.length
    match pickFrom R rng eligible production.rhs.length with
    | (none, rng) => (.panic, rng)
    | (some idx, rng) => (getExpressionRef production idx, rng)

/-- `src/generation.rs` 182-208: `CoverageGuided`. -/
def CoverageGuidedRef (R : Rng ρ Seed) : RefStrategy (List (Nat × Nat) × ρ) where
  choose st addr production _ :=
    let uncovered := (List.range production.rhs.length).filter fun i => !st.1.contains (addr, i)
    match pickFrom R st.2 uncovered production.rhs.length with
    | (none, rng) => (.panic, (st.1, rng))
    | (some idx, rng) => (getExpressionRef production idx, ((addr, idx) :: st.1, rng))

/-- `src/generation.rs` 258-300: `Weighted`. -/
def WeightedRef (R : Rng ρ Seed) (checked : Bool) (recursiveWeight nonRecursiveWeight : Nat) : RefStrategy ρ where
  choose rng _ production _ :=
    match weightedRandomIndex R checked rng (fillWeights recursiveWeight nonRecursiveWeight production) production.rhs.length with
    | (none, rng) => (.panic, rng)
    | (some idx, rng) => (getExpressionRef production idx, rng)

end Bnf
