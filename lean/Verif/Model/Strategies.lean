import Verif.Model.Generate

/-!
# The built-in strategies as the values they are

`Model/Generate` models the strategies by what they choose; here they are modelled once more with all their fields: the buffers that are
reused from call to call, the public parameters, the constructors, and, for `CoverageGuided`, addresses in memory.

`[0u8; 32]` is `zeros`; what `rand::rng()` fills in is an argument `system` of the constructors that use it.
-/

set_option autoImplicit false

namespace Bnf

variable {ρ Seed : Type}

/-- `Vec::clear`. -/
def vecClear {α : Type} (_ : List α) : List α := []

/-- `*buf.get(random_index(rng, buf.len())).expect(…)`, or `random_index(rng, len)` for an empty buffer: `src/generation.rs` 116-123 and
191-198. `none` is a panic. -/
def chooseFromBuf (R : Rng ρ Seed) (rng : ρ) (buf : List Nat) (len : Nat) : Option Nat × ρ :=
  if buf.isEmpty then randomIndex R rng len
  else
    let (i, rng) := randomIndex R rng buf.length
    (i.bind fun i => buf[i]?, rng)

/-- The end of every `choose`: `production.get_expression(idx)`, and the value of the strategy afterwards. -/
def chosenAt {σ : Type} (production : Production) (st : σ) : Option Nat → Choice × σ
  | none => (.panic, st)
  | some idx => (getExpression production idx, st)

/-! ## `RandomWalk` -/

/-- `src/generation.rs` 26-30. -/
structure RandomWalkValue (ρ : Type) where
  rng : ρ

/-- `src/generation.rs` 32-40: `Default`. -/
def RandomWalkValue.default (R : Rng ρ Seed) (system : Seed) : RandomWalkValue ρ := ⟨R.fromSeed system⟩

/-- `src/generation.rs` 45-49. -/
def RandomWalkValue.fromSeed (R : Rng ρ Seed) (seed : Seed) : RandomWalkValue ρ := ⟨R.fromSeed seed⟩

/-- `src/generation.rs` 52-58. -/
def RandomWalkValue.strategy (R : Rng ρ Seed) : Strategy (RandomWalkValue ρ) where
  choose v _ production _ :=
    let (idx, rng) := randomIndex R v.rng production.rhs.length
    chosenAt production ⟨rng⟩ idx

/-! ## `DepthBounded` -/

/-- `src/generation.rs` 64-72. -/
structure DepthBoundedValue (ρ : Type) where
  maxDepth : Nat
  rng : ρ
  eligibleBuf : List Nat

/-- `src/generation.rs` 77-85. -/
def DepthBoundedValue.new (R : Rng ρ Seed) (system : Seed) (maxDepth : Nat) : DepthBoundedValue ρ := ⟨maxDepth, R.fromSeed system, []⟩

/-- `src/generation.rs` 89-95. -/
def DepthBoundedValue.fromSeed (R : Rng ρ Seed) (maxDepth : Nat) (seed : Seed) : DepthBoundedValue ρ := ⟨maxDepth, R.fromSeed seed, []⟩

/-- `src/generation.rs` 108-112: the loop pushing the positions of alternatives without nonterminals. -/
def pushEligible : List Expression → Nat → List Nat → List Nat
  | [], _, buf => buf
  | e :: es, i, buf => pushEligible es (i + 1) (if expressionAllTerminals e then buf ++ [i] else buf)

/-- `src/generation.rs` 105-115: filling the buffer. -/
def DepthBoundedValue.fill (v : DepthBoundedValue ρ) (production : Production) (depth : Nat) : DepthBoundedValue ρ :=
  let v := { v with eligibleBuf := vecClear v.eligibleBuf }
  if depth ≥ v.maxDepth then { v with eligibleBuf := pushEligible production.rhs 0 v.eligibleBuf }
  else { v with eligibleBuf := v.eligibleBuf ++ List.range production.rhs.length }

/-- `src/generation.rs` 132-138 with 105-124. -/
def DepthBoundedValue.strategy (R : Rng ρ Seed) : Strategy (DepthBoundedValue ρ) where
  choose v _ production depth :=
    let v := v.fill production depth
    let (idx, rng) := chooseFromBuf R v.rng v.eligibleBuf production.rhs.length
    chosenAt production { v with rng := rng } idx

/-! ## `CoverageGuided` -/

/-- `src/generation.rs` 144-151.  The hash set `seen` holds pairs of an address (of the left-hand side of a production) and a position. -/
structure CoverageGuidedValue (ρ : Type) where
  seen : List (Nat × Nat)
  rng : ρ
  candidatesBuf : List Nat

/-- `src/generation.rs` 153-162 and 166-168: `Default` and `new`. -/
def CoverageGuidedValue.new (R : Rng ρ Seed) (zeros : Seed) : CoverageGuidedValue ρ := ⟨[], R.fromSeed zeros, []⟩

/-- `src/generation.rs` 172-178. -/
def CoverageGuidedValue.fromSeed (R : Rng ρ Seed) (seed : Seed) : CoverageGuidedValue ρ := ⟨[], R.fromSeed seed, []⟩

/-- `src/generation.rs` 186-190: the loop `for i in i..i + n` pushing the positions that were not chosen before. -/
def pushUncovered (seen : List (Nat × Nat)) (lhs : Nat) : Nat → Nat → List Nat → List Nat
  | 0, _, buf => buf
  | n + 1, i, buf => pushUncovered seen lhs n (i + 1) (if seen.contains (lhs, i) then buf else buf ++ [i])

/-- `src/generation.rs` 201-208 with 182-199; `addr` is `&production.lhs as *const Term`. -/
def CoverageGuidedValue.strategy (R : Rng ρ Seed) : Strategy (CoverageGuidedValue ρ) where
  choose v addr production _ :=
    let v := { v with candidatesBuf := vecClear v.candidatesBuf }
    let v := { v with candidatesBuf := pushUncovered v.seen addr production.rhs.length 0 v.candidatesBuf }
    let (idx, rng) := chooseFromBuf R v.rng v.candidatesBuf production.rhs.length
    match idx with
    | none => (.panic, { v with rng := rng })
    | some idx => (getExpression production idx, { v with rng := rng, seen := (addr, idx) :: v.seen })

/-! ## `Weighted` -/

/-- `src/generation.rs` 213-222. -/
structure WeightedValue (ρ : Type) where
  recursiveWeight : Nat
  nonRecursiveWeight : Nat
  rng : ρ
  weightsBuf : List Nat

/-- `src/generation.rs` 224-234: `Default`. -/
def WeightedValue.default (R : Rng ρ Seed) (zeros : Seed) : WeightedValue ρ := ⟨100, 1, R.fromSeed zeros, []⟩

/-- `src/generation.rs` 239-245. -/
def WeightedValue.new (R : Rng ρ Seed) (zeros : Seed) (recursiveWeight nonRecursiveWeight : Nat) : WeightedValue ρ :=
  { WeightedValue.default R zeros with recursiveWeight := recursiveWeight, nonRecursiveWeight := nonRecursiveWeight }

/-- `src/generation.rs` 249-256. -/
def WeightedValue.fromSeed (R : Rng ρ Seed) (recursiveWeight nonRecursiveWeight : Nat) (seed : Seed) : WeightedValue ρ :=
  ⟨recursiveWeight, nonRecursiveWeight, R.fromSeed seed, []⟩

/-- `src/generation.rs` 266-273: the loop pushing the weights. -/
def pushWeights (v w : Nat) (lhs : Term) : List Expression → List Nat → List Nat
  | [], buf => buf
  | e :: es, buf => pushWeights v w lhs es (buf ++ [if expressionContains e lhs then v else w])

/-- `src/generation.rs` 293-300 with 263-290.  `checked`: overflow checks are on. -/
def WeightedValue.strategy (R : Rng ρ Seed) (checked : Bool) : Strategy (WeightedValue ρ) where
  choose v _ production _ :=
    let v := { v with weightsBuf := vecClear v.weightsBuf }
    let v := { v with weightsBuf := pushWeights v.recursiveWeight v.nonRecursiveWeight production.lhs production.rhs v.weightsBuf }
    let (idx, rng) := weightedRandomIndex R checked v.rng v.weightsBuf production.rhs.length
    chosenAt production { v with rng := rng } idx

/-! ## Addresses -/

/-- The productions of a grammar lie somewhere in memory: `place i` is the address of the left-hand side of the `i`-th production.  A strategy
that looks at addresses, used with this grammar. -/
def Strategy.placed {σ : Type} (S : Strategy σ) (place : Nat → Nat) : Strategy σ where
  choose st i production depth := S.choose st (place i) production depth

end Bnf
