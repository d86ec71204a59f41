import Verif.Proofs.StrategyValues
import Verif.Props.Coverage

/-!
# Properties C100 and C101: strategy values

C100: what the reused buffers of a strategy hold never matters, and which constructors always generate the same.
C101: a coverage-guided strategy used with several grammars.
-/

set_option autoImplicit false

namespace Bnf.Props
open Bnf Spec

variable {ρ Seed σ τ : Type}

/-- A strategy and a callback that each have a state of their own, as in `generate_seeded_callback_with_strategy(&mut strategy, f)`
(`src/grammar.rs` 644-672). -/
def strategyBeside (τ : Type) (S : Strategy σ) : Strategy (σ × τ) where
  choose st a p d := ((S.choose st.1 a p d).1, (S.choose st.1 a p d).2, st.2)

/-- The callback of `strategyBeside`. -/
def callbackBeside (σ : Type) (f : τ → Str → Str → Bool × τ) : Callback (σ × τ) :=
  fun st n t => ((f st.2 n t).1, st.1, (f st.2 n t).2)

/-- One call with a strategy value and a callback. -/
def callWith (g : Grammar) (S : Strategy σ) (f : τ → Str → Str → Bool × τ) (fuel : Nat) (v : σ) (cb : τ) : GenRes (σ × τ) :=
  g.generateWith (strategyBeside τ S) (callbackBeside σ f) fuel (v, cb)

/-- If every choice of a strategy value is that of a simpler one, every call is. -/
theorem callWith_map {υ : Type} {S : Strategy σ} {S' : Strategy υ} {π : σ → υ} {I : σ → Prop} {g : Grammar}
    (hI : ∀ v a p d, I v → I (S.choose v a p d).2)
    (hS : ∀ v a p d, I v → findProduction (p.lhs.name) g.productions 0 = some (a, p) →
      S'.choose (π v) a p d = ((S.choose v a p d).1, π (S.choose v a p d).2))
    (f : τ → Str → Str → Bool × τ) (fuel : Nat) {v : σ} (hv : I v) (cb : τ) :
    (callWith g S f fuel v cb).map (fun st => (π st.1, st.2)) = callWith g S' f fuel (π v) cb := by
  unfold callWith
  refine generateWith_map (π := fun st : σ × τ => (π st.1, st.2)) (fun st => I st.1) ?_ ?_ ?_ ?_ fuel (st := (v, cb)) hv
  · intro st a p d h; exact hI _ a p d h
  · intro st n t h; exact h
  · intro st a p d h hp
    simp only [strategyBeside, hS st.1 a p d h hp]
  · intro st n t h; rfl

/-- C100: `RandomWalk`. -/
theorem C100_random_walk (R : Rng ρ Seed) (g : Grammar) (f : τ → Str → Str → Bool × τ) (fuel : Nat) (v : RandomWalkValue ρ) (cb : τ) :
    (callWith g (RandomWalkValue.strategy R) f fuel v cb).map (fun st => (st.1.rng, st.2)) = callWith g (RandomWalk R) f fuel v.rng cb :=
  callWith_map (I := fun _ => True) (fun _ _ _ _ _ => trivial) (fun v a p d _ _ => randomWalkValue_choose R v a p d) f fuel trivial cb

/-- C100: `DepthBounded`: the result of a call, the state of the random source and `max_depth` afterwards only depend on `max_depth` and the
random source before, not on what earlier calls, with whatever grammars, left in the buffer. -/
theorem C100_depth_bounded (R : Rng ρ Seed) (g : Grammar) (f : τ → Str → Str → Bool × τ) (fuel : Nat) (v : DepthBoundedValue ρ) (cb : τ) :
    (callWith g (DepthBoundedValue.strategy R) f fuel v cb).map (fun st => ((st.1.rng, st.1.maxDepth), st.2)) =
      (callWith g (DepthBounded R v.maxDepth) f fuel v.rng cb).map fun st => ((st.1, v.maxDepth), st.2) := by
  have h := callWith_map (π := DepthBoundedValue.rng) (I := fun w : DepthBoundedValue ρ => w.maxDepth = v.maxDepth) (g := g)
    (S := DepthBoundedValue.strategy R) (S' := DepthBounded R v.maxDepth)
    (fun w a p d hw => (depthBoundedValue_choose R w a p d).2.trans hw)
    (fun w a p d hw _ => hw ▸ (depthBoundedValue_choose R w a p d).1) f fuel (v := v) rfl cb
  rw [← h]
  have hm := callWith_map (π := fun w : DepthBoundedValue ρ => (w.rng, w.maxDepth)) (g := g)
    (I := fun w : DepthBoundedValue ρ => w.maxDepth = v.maxDepth) (S := DepthBoundedValue.strategy R)
    (S' := ⟨fun st a p d => (((DepthBounded R v.maxDepth).choose st.1 a p d).1, ((DepthBounded R v.maxDepth).choose st.1 a p d).2, v.maxDepth)⟩)
    (fun w a p d hw => (depthBoundedValue_choose R w a p d).2.trans hw)
    (fun w a p d hw _ => by
      have := depthBoundedValue_choose R w a p d
      rw [hw] at this
      simp only [this.1, this.2]) f fuel (v := v) rfl cb
  have hm' := callWith_map (π := fun w : ρ => (w, v.maxDepth)) (g := g) (I := fun _ => True) (S := DepthBounded R v.maxDepth)
    (S' := ⟨fun st a p d => (((DepthBounded R v.maxDepth).choose st.1 a p d).1, ((DepthBounded R v.maxDepth).choose st.1 a p d).2, v.maxDepth)⟩)
    (fun _ _ _ _ _ => trivial) (fun w a p d _ _ => rfl) f fuel (v := v.rng) trivial cb
  rw [hm, h, hm']

/-- C100: `CoverageGuided`. -/
theorem C100_coverage_guided (R : Rng ρ Seed) (g : Grammar) (f : τ → Str → Str → Bool × τ) (fuel : Nat) (v : CoverageGuidedValue ρ) (cb : τ) :
    (callWith g (CoverageGuidedValue.strategy R) f fuel v cb).map (fun st => ((st.1.seen, st.1.rng), st.2)) =
      callWith g (CoverageGuided R) f fuel (v.seen, v.rng) cb :=
  callWith_map (π := fun w : CoverageGuidedValue ρ => (w.seen, w.rng)) (I := fun _ => True) (fun _ _ _ _ _ => trivial)
    (fun v a p d _ _ => coverageGuidedValue_choose R v a p d) f fuel trivial cb

/-- C100: `Weighted`. -/
theorem C100_weighted (R : Rng ρ Seed) (c : Bool) (g : Grammar) (f : τ → Str → Str → Bool × τ) (fuel : Nat) (v : WeightedValue ρ) (cb : τ) :
    (callWith g (WeightedValue.strategy R c) f fuel v cb).map
        (fun st => ((st.1.rng, st.1.recursiveWeight, st.1.nonRecursiveWeight), st.2)) =
      (callWith g (Weighted R c v.recursiveWeight v.nonRecursiveWeight) f fuel v.rng cb).map
        fun st => ((st.1, v.recursiveWeight, v.nonRecursiveWeight), st.2) := by
  have hm := callWith_map (π := fun w : WeightedValue ρ => (w.rng, w.recursiveWeight, w.nonRecursiveWeight)) (g := g)
    (I := fun w : WeightedValue ρ => w.recursiveWeight = v.recursiveWeight ∧ w.nonRecursiveWeight = v.nonRecursiveWeight)
    (S := WeightedValue.strategy R c)
    (S' := ⟨fun st a p d => (((Weighted R c v.recursiveWeight v.nonRecursiveWeight).choose st.1 a p d).1,
      ((Weighted R c v.recursiveWeight v.nonRecursiveWeight).choose st.1 a p d).2, v.recursiveWeight, v.nonRecursiveWeight)⟩)
    (fun w a p d hw => ⟨(weightedValue_choose R c w a p d).2.1.trans hw.1, (weightedValue_choose R c w a p d).2.2.trans hw.2⟩)
    (fun w a p d hw _ => by
      have := weightedValue_choose R c w a p d
      rw [hw.1, hw.2] at this
      simp only [this.1, this.2.1, this.2.2]) f fuel (v := v) ⟨rfl, rfl⟩ cb
  have hm' := callWith_map (π := fun w : ρ => (w, v.recursiveWeight, v.nonRecursiveWeight)) (g := g) (I := fun _ => True)
    (S := Weighted R c v.recursiveWeight v.nonRecursiveWeight)
    (S' := ⟨fun st a p d => (((Weighted R c v.recursiveWeight v.nonRecursiveWeight).choose st.1 a p d).1,
      ((Weighted R c v.recursiveWeight v.nonRecursiveWeight).choose st.1 a p d).2, v.recursiveWeight, v.nonRecursiveWeight)⟩)
    (fun _ _ _ _ _ => trivial) (fun w a p d _ _ => rfl) f fuel (v := v.rng) trivial cb
  rw [hm, hm']

/-- C100 (disagreement): `CoverageGuided::new()`, `CoverageGuided::default()`, `Weighted::new(…)` and `Weighted::default()` are the values that
`from_seed` makes from 32 zero bytes, so what they generate is the same in every run of every program; `RandomWalk::default()` and
`DepthBounded::new(…)` are those that `from_seed` makes from bytes of the system. -/
theorem C100_constructors (R : Rng ρ Seed) (zeros system : Seed) (a b d : Nat) :
    CoverageGuidedValue.new R zeros = CoverageGuidedValue.fromSeed R zeros ∧
    WeightedValue.new R zeros a b = WeightedValue.fromSeed R a b zeros ∧
    WeightedValue.default R zeros = WeightedValue.fromSeed R 100 1 zeros ∧
    RandomWalkValue.default R system = RandomWalkValue.fromSeed R system ∧
    DepthBoundedValue.new R system d = DepthBoundedValue.fromSeed R d system :=
  ⟨rfl, rfl, rfl, rfl, rfl⟩

/-! ## Several grammars -/

/-- Addresses of the productions of a grammar: different productions lie at different addresses. -/
def Placement (g : Grammar) (place : Nat → Nat) : Prop :=
  ∀ a b, a < g.productions.length → b < g.productions.length → place a = place b → a = b

/-- What a strategy that remembers the addresses `seen` knows about the productions of a grammar. -/
def knownOf (g : Grammar) (place : Nat → Nat) (seen : List (Nat × Nat)) : List (Nat × Nat) :=
  seen.filterMap fun x => ((List.range g.productions.length).find? fun a => place a == x.1).map fun a => (a, x.2)

/-- No production of `g` lies where one of `h` is. -/
def Apart (g : Grammar) (place : Nat → Nat) (h : Grammar) (place' : Nat → Nat) : Prop :=
  ∀ a b, a < g.productions.length → b < h.productions.length → place a ≠ place' b

theorem find_place {g : Grammar} {place : Nat → Nat} (hp : Placement g place) {a : Nat} (ha : a < g.productions.length) :
    (List.range g.productions.length).find? (fun b => place b == place a) = some a := by
  cases h : (List.range g.productions.length).find? (fun b => place b == place a) with
  | none =>
    have := List.find?_eq_none.1 h a (by simpa using ha)
    simp at this
  | some b =>
    have h1 := List.find?_some h
    have h2 := List.mem_of_find?_eq_some h
    rw [hp b a (by simpa using h2) ha (by simpa using h1)]

/-- `knownOf` says what it should. -/
theorem mem_knownOf {g : Grammar} {place : Nat → Nat} (hp : Placement g place) {seen : List (Nat × Nat)} {a i : Nat} :
    (a, i) ∈ knownOf g place seen ↔ a < g.productions.length ∧ (place a, i) ∈ seen := by
  simp only [knownOf, List.mem_filterMap, Option.map_eq_some_iff, Prod.mk.injEq]
  constructor
  · rintro ⟨x, hx, b, hb, rfl, rfl⟩
    have h1 := List.find?_some hb
    have h2 := List.mem_of_find?_eq_some hb
    simp only [beq_iff_eq] at h1
    exact ⟨by simpa using h2, by rw [h1]; exact hx⟩
  · rintro ⟨ha, h⟩
    exact ⟨_, h, a, find_place hp ha, rfl, rfl⟩

theorem knownOf_cons {g : Grammar} {place : Nat → Nat} (hp : Placement g place) (seen : List (Nat × Nat)) {a i : Nat}
    (ha : a < g.productions.length) : knownOf g place ((place a, i) :: seen) = (a, i) :: knownOf g place seen := by
  simp [knownOf, find_place hp ha]

theorem knownOf_cons_apart {g h : Grammar} {place place' : Nat → Nat} (hd : Apart g place h place') (seen : List (Nat × Nat)) {a i : Nat}
    (ha : a < g.productions.length) : knownOf h place' ((place a, i) :: seen) = knownOf h place' seen := by
  have : (List.range h.productions.length).find? (fun b => place' b == place a) = none := by
    rw [List.find?_eq_none]
    intro b hb
    have := hd a b ha (by simpa using hb)
    simp only [beq_iff_eq]
    exact fun h => this h.symm
  simp [knownOf, this]

/-- C101: what a coverage-guided strategy generates from a grammar, wherever its productions lie in memory, only depends on its random source and on
what it knows about this grammar. -/
theorem C101_own (R : Rng ρ Seed) {g : Grammar} {place : Nat → Nat} (hp : Placement g place) (f : τ → Str → Str → Bool × τ) (fuel : Nat)
    (seen : List (Nat × Nat)) (rng : ρ) (cb : τ) :
    (callWith g ((CoverageGuided R).placed place) f fuel (seen, rng) cb).map (fun st => ((knownOf g place st.1.1, st.1.2), st.2)) =
      callWith g (CoverageGuided R) f fuel (knownOf g place seen, rng) cb := by
  refine callWith_map (π := fun st : List (Nat × Nat) × ρ => (knownOf g place st.1, st.2)) (I := fun _ => True) (fun _ _ _ _ _ => trivial)
    (fun st a p d _ hf => ?_) f fuel (v := (seen, rng)) trivial cb
  have ha : a < g.productions.length := by have := findProduction_lt hf; omega
  have hc : ∀ i, (knownOf g place st.1).contains (a, i) = st.1.contains (place a, i) := by
    intro i
    rw [Bool.eq_iff_iff, List.contains_iff_mem, List.contains_iff_mem, mem_knownOf hp]
    exact ⟨fun h => h.2, fun h => ⟨ha, h⟩⟩
  simp only [Strategy.placed, CoverageGuided, hc]
  cases hr : pickFrom R st.2 ((List.range p.rhs.length).filter fun i => !st.1.contains (place a, i)) p.rhs.length with
  | mk i r =>
    cases i with
    | none => rfl
    | some i => simp only [knownOf_cons hp st.1 ha]

/-- C101: what it knows about a grammar elsewhere in memory is not changed. -/
theorem C101_others (R : Rng ρ Seed) {g h : Grammar} {place place' : Nat → Nat} (hd : Apart g place h place')
    (f : τ → Str → Str → Bool × τ) (fuel : Nat) {seen seen' : List (Nat × Nat)} {rng rng' : ρ} {cb cb' : τ} {r : Except Error Str}
    (hr : callWith g ((CoverageGuided R).placed place) f fuel (seen, rng) cb = .done r ((seen', rng'), cb')) :
    knownOf h place' seen' = knownOf h place' seen := by
  have key := callWith_map (τ := τ) (π := fun st : List (Nat × Nat) × ρ => (st, knownOf h place' st.1)) (g := g)
    (S := (CoverageGuided R).placed place)
    (S' := ⟨fun st a p d => ((((CoverageGuided R).placed place).choose st.1 a p d).1, (((CoverageGuided R).placed place).choose st.1 a p d).2, st.2)⟩)
    (I := fun _ => True) (fun _ _ _ _ _ => trivial)
    (fun st a p d _ hf => by
      have ha : a < g.productions.length := by have := findProduction_lt hf; omega
      have : knownOf h place' (((CoverageGuided R).placed place).choose st a p d).2.1 = knownOf h place' st.1 := by
        simp only [Strategy.placed, CoverageGuided]
        cases hr : pickFrom R st.2 ((List.range p.rhs.length).filter fun i => !st.1.contains (place a, i)) p.rhs.length with
        | mk i r =>
          cases i with
          | none => rfl
          | some i => exact knownOf_cons_apart hd st.1 ha
      simp only [this]) f fuel (v := (seen, rng)) trivial cb
  have key' := callWith_map (τ := τ) (π := fun st : List (Nat × Nat) × ρ => (st, knownOf h place' seen)) (g := g)
    (S := (CoverageGuided R).placed place)
    (S' := ⟨fun st a p d => ((((CoverageGuided R).placed place).choose st.1 a p d).1, (((CoverageGuided R).placed place).choose st.1 a p d).2, st.2)⟩)
    (I := fun _ => True) (fun _ _ _ _ _ => trivial) (fun st a p d _ _ => rfl) f fuel (v := (seen, rng)) trivial cb
  rw [← key'] at key
  rw [hr] at key
  simp only [GenRes.map, GenRes.done.injEq, Prod.mk.injEq, true_and, and_true] at key
  exact key

/-- C101: so a strategy that was used with grammars elsewhere in memory generates from `g` exactly what one that was never used would, with
the same random source. -/
theorem C101_fresh (R : Rng ρ Seed) {g : Grammar} {place : Nat → Nat} (hp : Placement g place) {seen : List (Nat × Nat)}
    (hs : ∀ x ∈ seen, ∀ a < g.productions.length, x.1 ≠ place a) (f : τ → Str → Str → Bool × τ) (fuel : Nat) (rng : ρ) (cb : τ) :
    (callWith g ((CoverageGuided R).placed place) f fuel (seen, rng) cb).map (fun st => ((knownOf g place st.1.1, st.1.2), st.2)) =
      callWith g (CoverageGuided R) f fuel ([], rng) cb := by
  rw [C101_own R hp]
  congr
  rw [List.eq_nil_iff_forall_not_mem]
  rintro ⟨a, i⟩ h
  obtain ⟨h1, h2⟩ := (mem_knownOf hp).1 h
  exact hs _ h2 a h1 rfl

/-- The callback of `generate_seeded_with_strategy`. -/
def takeAll : Unit → Str → Str → Bool × Unit := fun cb _ _ => (true, cb)

theorem callWith_takeAll (g : Grammar) (S : Strategy σ) (fuel : Nat) (v : σ) :
    (callWith g S takeAll fuel v ()).map Prod.fst = g.generateSeededWithStrategy S fuel v := by
  unfold callWith Grammar.generateSeededWithStrategy
  exact generateWith_map (π := (Prod.fst : σ × Unit → σ)) (fun _ => True) (fun _ _ _ _ _ => trivial) (fun _ _ _ _ => trivial)
    (fun _ _ _ _ _ _ => rfl) (fun _ _ _ _ => rfl) fuel (st := (v, ())) trivial

/-- Calls of `generate_seeded_with_strategy` with one coverage-guided strategy, on grammars of one production, each at the address `7` (a
grammar is dropped before the next is made). -/
inductive CallsAt7 : List Grammar → List (Nat × Nat) → List Str → List (Nat × Nat) → Prop where
  | nil (seen) : CallsAt7 [] seen [] seen
  | cons {g gs seen fuel s seen' ss seen''} :
    callWith g ((CoverageGuided lastRng).placed fun _ => 7) takeAll fuel (seen, ()) () = .done (.ok s) ((seen', ()), ()) →
    CallsAt7 gs seen' ss seen'' → CallsAt7 (g :: gs) seen (s :: ss) seen''

/-- `<s> ::= 'a' | 'b'`. -/
def dropped : Grammar := ⟨[⟨.nonterminal ['s'], [⟨[.terminal ['a']]⟩, ⟨[.terminal ['b']]⟩]⟩]⟩

theorem reused_step {fuel : Nat} {seen seen' : List (Nat × Nat)} {s : Str} (h0 : (7, 0) ∈ seen) (h1 : (7, 1) ∈ seen)
    (h : callWith afterRemoval ((CoverageGuided lastRng).placed fun _ => 7) takeAll fuel (seen, ()) () = .done (.ok s) ((seen', ()), ())) :
    s = ['d'] ∧ (7, 0) ∈ seen' ∧ (7, 1) ∈ seen' := by
  have hp : Placement afterRemoval fun _ => 7 := by
    intro a b ha hb _
    simp only [afterRemoval, List.length_cons, List.length_nil] at ha hb
    omega
  have h2 := C101_own lastRng hp takeAll fuel seen () ()
  rw [h] at h2
  have h3 := callWith_takeAll afterRemoval (CoverageGuided lastRng) fuel (knownOf afterRemoval (fun _ => 7) seen, ())
  rw [← h2] at h3
  have hl : 0 < afterRemoval.productions.length := by simp [afterRemoval]
  obtain ⟨h4, h5, h6⟩ := afterRemoval_step ((mem_knownOf hp).2 ⟨hl, h0⟩) ((mem_knownOf hp).2 ⟨hl, h1⟩) h3.symm
  exact ⟨h4, ((mem_knownOf hp).1 h5).2, ((mem_knownOf hp).1 h6).2⟩

/-- C101 (disagreement with the documentation, "(nonterminal, `expression_index`) pairs that have been chosen"): the pairs hold addresses, and these
outlive the grammars.  If a grammar is dropped and the memory is given to another one, the alternatives of the new one count as chosen: here
two sentences of `<s> ::= 'a' | 'b'` are generated, then any number from `<q> ::= 'c' | 'd'`, in the same place; `c` is never
generated. -/
theorem C101_reused_memory (n : Nat) {ss : List Str} {seen : List (Nat × Nat)}
    (h : CallsAt7 (dropped :: dropped :: List.replicate n afterRemoval) [] ss seen) : ['c'] ∉ ss := by
  have key : ∀ (n : Nat) {seen seen' : List (Nat × Nat)} {ss : List Str}, CallsAt7 (List.replicate n afterRemoval) seen ss seen' →
      (7, 0) ∈ seen → (7, 1) ∈ seen → ['c'] ∉ ss := by
    intro n
    induction n with
    | zero => intro seen seen' ss h _ _; cases h; simp
    | succ n ih =>
      intro seen seen' ss h h0 h1
      rw [List.replicate_succ] at h
      cases h with
      | cons a b =>
        obtain ⟨rfl, h2, h3⟩ := reused_step h0 h1 a
        have := ih b h2 h3
        simpa using this
  cases h with
  | @cons _ _ _ f1 _ _ _ _ a b =>
    cases b with
    | @cons _ _ _ f2 _ _ _ _ b c =>
      match f1, f2 with
      | 0, _ => cases a
      | _ + 1, 0 => cases a; cases b
      | _ + 1, _ + 1 =>
        cases a
        cases b
        have := key n c (by decide) (by decide)
        simpa using this

/-- Such calls exist. -/
example : ∃ seen, CallsAt7 (dropped :: dropped :: List.replicate 3 afterRemoval) [] [['b'], ['a'], ['d'], ['d'], ['d']] seen :=
  ⟨_, .cons (fuel := 5) rfl (.cons (fuel := 5) rfl (.cons (fuel := 5) rfl (.cons (fuel := 5) rfl (.cons (fuel := 5) rfl (.nil _)))))⟩

/-- Two grammars at different addresses, used in turn. -/
example : Placement starved (fun a => 10 + a) ∧ Placement beforeRemoval (fun a => 20 + a) ∧
    Apart starved (fun a => 10 + a) beforeRemoval (fun a => 20 + a) ∧
    ∃ seen', callWith starved ((CoverageGuided lastRng).placed fun a => 10 + a) takeAll 5 ([(20, 1), (21, 0)], ()) () =
        .done (.ok ['x']) ((seen', ()), ()) ∧ knownOf beforeRemoval (fun a => 20 + a) seen' = [(0, 1), (1, 0)] := by
  refine ⟨fun a b _ _ h => by dsimp only at h; omega, fun a b _ _ h => by dsimp only at h; omega, fun a b ha hb => ?_, _, rfl, by decide⟩
  dsimp only
  simp only [starved, beforeRemoval, List.length_cons, List.length_nil] at ha hb
  omega

/-- Buffers full of rubbish, a depth-bounded strategy at its bound and a weighted one. -/
example : ((DepthBoundedValue.strategy lastRng).choose ⟨3, (), [7, 0, 5]⟩ 0 ⟨.nonterminal ['s'], [⟨[.terminal ['a']]⟩, ⟨[.nonterminal ['s']]⟩]⟩ 4) =
      (.expr ⟨[.terminal ['a']]⟩, ⟨3, (), [0]⟩) ∧
    ((WeightedValue.strategy lastRng true).choose ⟨100, 1, (), [7]⟩ 0 ⟨.nonterminal ['s'], [⟨[.terminal ['a']]⟩, ⟨[.nonterminal ['s']]⟩]⟩ 4) =
      (.expr ⟨[.nonterminal ['s']]⟩, ⟨100, 1, (), [1, 100]⟩) := ⟨rfl, rfl⟩

end Bnf.Props
