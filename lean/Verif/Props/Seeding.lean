import Verif.Proofs.Callback
import Mathlib.Logic.Function.Iterate

/-! # Property C68: seeded generation is reproducible and isolated from the caller's random source -/

set_option autoImplicit false

namespace Bnf.Props
open Bnf Spec

variable {ρ Seed : Type}

/-- The outcome without the final state of the strategy. -/
def resultOf {σ : Type} (r : GenRes σ) : GenRes Unit := r.map fun _ => ()

/-- C68: `generate_seeded` and `generate_seeded_callback` only use the 32 bytes that the caller's random source fills in:
sources that fill in the same bytes give the same result, whatever else they would deliver. -/
theorem C68_reproducible (R : Rng ρ Seed) (g : Grammar) (rng rng' : ρ) (h : (R.fill rng).1 = (R.fill rng').1) (fuel : Nat) :
    (g.generateSeeded R fuel rng).1 = (g.generateSeeded R fuel rng').1 ∧
    ∀ (τ : Type) (f : τ → Str → Str → Bool × τ) (cb : τ),
      (g.generateSeededCallback R f fuel rng cb).1 = (g.generateSeededCallback R f fuel rng' cb).1 := by
  constructor
  · unfold Grammar.generateSeeded
    simp only [h]
  · intro τ f cb
    unfold Grammar.generateSeededCallback
    simp only [h]

/-- C68: the caller's random source is advanced by filling these bytes once, whatever the grammar, the callback, the
result and the length of the generation. -/
theorem C68_caller_source (R : Rng ρ Seed) (g : Grammar) (rng : ρ) (fuel : Nat) :
    (g.generateSeeded R fuel rng).2 = (R.fill rng).2 ∧
    ∀ (τ : Type) (f : τ → Str → Str → Bool × τ) (cb : τ), (g.generateSeededCallback R f fuel rng cb).2 = (R.fill rng).2 :=
  ⟨rfl, fun _ _ _ => rfl⟩

/-- Successive calls of `generate_seeded` with one random source. -/
def seededCalls (R : Rng ρ Seed) (fuel : Nat) : List Grammar → ρ → List (GenRes ρ)
  | [], _ => []
  | g :: gs, rng => (g.generateSeeded R fuel rng).1 :: seededCalls R fuel gs (g.generateSeeded R fuel rng).2

/-- C68: hence in a series of calls with one random source the result of a call only depends on its own grammar and on how
many calls there were before, not on what they generated. -/
theorem C68_series (R : Rng ρ Seed) (fuel : Nat) (gs : List Grammar) (rng : ρ) (k : Nat) :
    (seededCalls R fuel gs rng)[k]? = gs[k]?.map fun g => (g.generateSeeded R fuel ((fun r => (R.fill r).2)^[k] rng)).1 := by
  induction gs generalizing rng k with
  | nil => rfl
  | cons g gs ih =>
    cases k with
    | zero => rfl
    | succ k =>
      simp only [seededCalls, List.getElem?_cons_succ, ih, Function.iterate_succ, Function.comp_apply]
      rw [(C68_caller_source R g rng fuel).1]

/-- C68: `generate_seeded` is `generate_seeded_callback` with the callback that accepts everything, and the `RandomWalk`
strategy seeded with the filled bytes. -/
theorem C68_one_generator (R : Rng ρ Seed) (g : Grammar) (rng : ρ) (fuel : Nat) :
    resultOf (g.generateSeeded R fuel rng).1 =
      resultOf (g.generateSeededWithStrategy (RandomWalk R) fuel (R.fromSeed (R.fill rng).1)) ∧
    ∀ (τ : Type) (cb : τ), resultOf (g.generateSeededCallback R (fun cb _ _ => (true, cb)) fuel rng cb).1 =
      resultOf (g.generateSeeded R fuel rng).1 := by
  refine ⟨rfl, fun τ cb => ?_⟩
  have h := callback_pair R g (fun _ _ => true) fuel rng cb
  have hm : ∀ x : GenRes (ρ × τ), resultOf x = resultOf (x.map Prod.fst) := by
    intro x; cases x <;> rfl
  rw [hm, h]
  rfl

/-- C68: `generate` is `generate_seeded` with a generator made from the bytes of the system's random source, and
`generate_callback` is `generate_seeded_callback` with it. -/
theorem C68_unseeded (R : Rng ρ Seed) (g : Grammar) (seed : Seed) (fuel : Nat) :
    resultOf (g.generate R fuel seed) = resultOf (g.generateSeeded R fuel (R.fromSeed seed)).1 ∧
    ∀ (τ : Type) (f : τ → Str → Str → Bool × τ) (cb : τ),
      g.generateCallback R f fuel seed cb = (g.generateSeededCallback R f fuel (R.fromSeed seed) cb).1 :=
  ⟨(C68_one_generator R g (R.fromSeed seed) fuel).2 Unit (), fun _ _ _ => rfl⟩

/-- A toy source whose state is (bytes to fill in next, bytes after that). -/
def toyRng : Rng (Nat × Nat) Nat where
  index r n := (r.1 % n, (r.1 / n, r.2))
  u32 r n := (r.1 % n, (r.1 / n, r.2))
  fill r := (r.1, (r.2, r.2))
  fromSeed s := (s, s)
  index_lt _ _ h := Nat.mod_lt _ h
  u32_lt _ _ h := Nat.mod_lt _ h

/-- Different sources that fill in the same bytes, and sources that do not and give another sentence. -/
example : (toyRng.fill (1, 2)).1 = (toyRng.fill (1, 3)).1 ∧ ((1, 2) : Nat × Nat) ≠ (1, 3) := by decide
example : resultOf ((⟨[⟨.nonterminal ['s'], [⟨[.terminal ['x']]⟩, ⟨[.terminal ['y']]⟩]⟩]⟩ : Grammar).generateSeeded toyRng 3 (1, 2)).1 =
    .done (.ok ['y']) () ∧
  resultOf ((⟨[⟨.nonterminal ['s'], [⟨[.terminal ['x']]⟩, ⟨[.terminal ['y']]⟩]⟩]⟩ : Grammar).generateSeeded toyRng 3 (0, 2)).1 =
    .done (.ok ['x']) () := by
  constructor <;> rfl

end Bnf.Props
