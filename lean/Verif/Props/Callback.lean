import Verif.Proofs.Callback
import Verif.Props.Endless

/-! # Property C64: generation with a callback, and C59, C39 for the remaining strategy -/

set_option autoImplicit false

namespace Bnf.Props
open Bnf Spec

/-! ## Strategies in general, CoverageGuided -/

/-- C59: no strategy that always chooses an alternative can run forever if the random walk cannot; the bound does not depend on the
strategy. -/
theorem C59_any_strategy (g : Grammar) (h : ¬ StartEndless g anyAlternative) :
    ∃ fuel, ∀ (σ : Type) (S : Strategy σ), (∀ st a p d, p.rhs ≠ [] → ∃ e ∈ p.rhs, (S.choose st a p d).1 = .expr e) →
      ∀ st, ∃ r st', g.generateSeededWithStrategy S fuel st = .done r st' := by
  obtain ⟨fuel, hf⟩ := generate_bounded (A := anyAlternative) id h
  refine ⟨fuel, fun σ S hS st => hf σ S (fun st a p d _ hne => ?_) st⟩
  obtain ⟨e, he, h1⟩ := hS st a p d hne
  exact ⟨e, _, Prod.ext h1 rfl, he⟩

/-- C39: once all alternatives of all productions are covered, `CoverageGuided` generates exactly what `RandomWalk` generates from the
same random source. -/
theorem C39_covered_random_walk {ρ Seed : Type} (R : Rng ρ Seed) (g : Grammar) (f : Callback ρ) {seen : List (Nat × Nat)}
    (hs : ∀ a p, g.productions[a]? = some p → ∀ i < p.rhs.length, (a, i) ∈ seen) (fuel : Nat) (rng : ρ) :
    (g.generateWith (CoverageGuided R) (fun st n t => ((f st.2 n t).1, (st.1, (f st.2 n t).2))) fuel (seen, rng)).map Prod.snd =
      g.generateWith (RandomWalk R) f fuel rng :=
  coverage_generate hs fuel rng

example : ∃ seen : List (Nat × Nat), seen ≠ [] ∧ ∀ a p, gExp.productions[a]? = some p → ∀ i < p.rhs.length, (a, i) ∈ seen := by
  refine ⟨[(0, 0), (0, 1), (1, 0), (1, 1)], by simp, fun a p hp i hi => ?_⟩
  match a, hp with
  | 0, hp => simp [gExp] at hp; subst hp; have hi : i < 2 := hi; simp; omega
  | 1, hp => simp [gExp] at hp; subst hp; have hi : i < 2 := hi; simp; omega
  | a + 2, hp => simp [gExp] at hp

/-- C59: `CoverageGuided` with some record of covered alternatives can run forever, for some random source, under the same condition as
the random walk. -/
theorem C59_coverage_guided (g : Grammar) :
    (∃ (ρ Seed : Type) (R : Rng ρ Seed) (seen : List (Nat × Nat)) (rng : ρ), ∀ fuel,
      g.generateSeededWithStrategy (CoverageGuided R) fuel (seen, rng) = .fuel) ↔ StartEndless g anyAlternative := by
  constructor
  · rintro ⟨_, _, _, _, _, h⟩
    exact generate_diverges coverage_obeys h
  · intro h
    obtain ⟨st, hst⟩ := diverging_generate randomWalk_steerable h
    refine ⟨_, _, seqRng, g.productions.zipIdx.flatMap fun x => (List.range x.1.rhs.length).map fun i => (x.2, i), st, fun fuel => ?_⟩
    have hc := C39_covered_random_walk seqRng g (acceptAll (Nat → Nat))
      (seen := g.productions.zipIdx.flatMap fun x => (List.range x.1.rhs.length).map fun i => (x.2, i))
      (fun a p hp i hi => by
        rw [List.mem_flatMap]
        refine ⟨(p, a), ?_, ?_⟩
        · rw [List.mem_zipIdx_iff_getElem?]; exact hp
        · simpa using hi) fuel st
    have h1 : g.generateWith (RandomWalk seqRng) (acceptAll (Nat → Nat)) fuel st = .fuel := hst fuel
    rw [h1] at hc
    unfold Grammar.generateSeededWithStrategy
    have h2 : (fun st n t => ((acceptAll (Nat → Nat) st.2 n t).1, (st.1, (acceptAll (Nat → Nat) st.2 n t).2)) :
        Callback (List (Nat × Nat) × (Nat → Nat))) = fun st _ _ => (true, st) := rfl
    rw [h2] at hc
    generalize g.generateWith (CoverageGuided seqRng) _ fuel _ = r at hc
    cases r with
    | fuel => rfl
    | panic => cases hc
    | done r st => cases hc

/-- `<s> ::= <s> | "x"` -/
def gAgain : Grammar := ⟨[⟨.nonterminal ['s'], [⟨[.nonterminal ['s']]⟩, ⟨[.terminal ['x']]⟩]⟩]⟩

/-- C59: a new `CoverageGuided` is different: for `<s> ::= <s> | "x"` it always ends, since it does not choose `<s>` twice before
having chosen `"x"`; the random walk need not end. -/
theorem C59_coverage_fresh_witness :
    (∀ (ρ Seed : Type) (R : Rng ρ Seed) (rng : ρ), ∃ st', gAgain.generateSeededWithStrategy (CoverageGuided R) 3 ([], rng) =
      .done (.ok ['x']) st') ∧
    ∃ (ρ Seed : Type) (R : Rng ρ Seed) (rng : ρ), ∀ fuel, gAgain.generateSeededWithStrategy (RandomWalk R) fuel rng = .fuel := by
  have hf : findProduction ['s'] gAgain.productions 0 = some (0, gAgain.productions[0]) := by decide
  have hn : ¬ productionHasNoChoice gAgain.productions[0] = true := by decide
  constructor
  · intro ρ Seed R rng
    have ht : gAgain.terminates = some true := by decide
    have hstep : ∀ N d seen rng, (∃ j < 2, (0, j) ∉ seen) → ∃ i rng', i < 2 ∧ (0, i) ∉ seen ∧
        traverse gAgain (CoverageGuided R) (acceptAll _) (N + 1) ['s'] d (seen, rng) =
          if i = 0 then traverse gAgain (CoverageGuided R) (acceptAll _) N ['s'] (d + 1) ((0, 0) :: seen, rng')
          else .done (.ok ['x']) ((0, i) :: seen, rng') := by
      intro N d seen rng hex
      obtain ⟨i, rng', hi, h1, h2⟩ := coverage_spec (R := R) seen rng 0 gAgain.productions[0] d (by decide)
      refine ⟨i, rng', hi, h2 hex, ?_⟩
      rw [traverse_choose hf hn, h1]
      have hi' : i < 2 := hi
      match i, hi' with
      | 0, _ =>
        have ht : (gAgain.productions[0].rhs[0]).terms = [.nonterminal ['s']] := rfl
        simp only [ht, evalTerms, List.nil_append, if_true]
        cases traverse gAgain (CoverageGuided R) (acceptAll _) N ['s'] (d + 1) ((0, 0) :: seen, rng') with
        | fuel => rfl
        | panic => rfl
        | done r st => cases r <;> rfl
      | 1, _ =>
        have ht : (gAgain.productions[0].rhs[1]).terms = [.terminal ['x']] := rfl
        simp [ht, evalTerms, acceptAll]
    unfold Grammar.generateSeededWithStrategy Grammar.generateWith
    rw [ht]
    change ∃ st', traverse gAgain (CoverageGuided R) (acceptAll _) 3 ['s'] 0 ([], rng) = .done (.ok ['x']) st'
    obtain ⟨i, rng', hi, _, h3⟩ := hstep 2 0 [] rng ⟨0, by omega, by simp⟩
    rw [h3]
    by_cases h0 : i = 0
    · rw [if_pos h0]
      obtain ⟨j, rng2, hj, h4, h5⟩ := hstep 1 1 [(0, 0)] rng' ⟨1, by omega, by simp⟩
      rw [h5, if_neg (by intro hj0; subst hj0; simp at h4)]
      exact ⟨_, rfl⟩
    · rw [if_neg h0]; exact ⟨_, rfl⟩
  · refine (C59_random_walk gAgain).2 ⟨['s'], ['x'], rfl, ?_, fun _ => ['s'], rfl, fun i => ?_⟩
    · exact ⟨⟨.nonterminal ['s'], [.terminal ['x']]⟩, rfl,
        ⟨⟨[.terminal ['x']]⟩, ⟨gAgain.productions[0], by simp [gAgain], rfl, by simp [gAgain]⟩, .terminal .nil⟩, rfl⟩
    · exact ⟨gAgain.productions[0], ⟨[.nonterminal ['s']]⟩, [], [], ⟨[], [], rfl, rfl, by simp⟩, by simp [NoChoice, gAgain],
        by simp [anyAlternative, gAgain], rfl, by simp⟩

/-! ## C64: callbacks that only look at their arguments -/

/-- What generation with a callback returns: expansions of the starting nonterminal through allowed choices, all of them accepted. -/
def CanYield (g : Grammar) (A : Allowance) (acc : Str → Str → Bool) (s : Str) : Prop :=
  ∃ start w, g.startingTerm = some (.nonterminal start) ∧ Derives g (.nonterminal start) w ∧ Yields g A acc 0 [.nonterminal start] s

/-- C64: exactly which sentences generation with a callback can return, for the three strategies. -/
theorem C64_sentences (g : Grammar) (acc : Str → Str → Bool) (s : Str) :
    ((∃ (ρ Seed : Type) (R : Rng ρ Seed) (st : ρ) (fuel : Nat) (st' : ρ),
        g.generateWith (RandomWalk R) (fun st n t => (acc n t, st)) fuel st = .done (.ok s) st') ↔ CanYield g anyAlternative acc s) ∧
    (∀ m, (∃ (ρ Seed : Type) (R : Rng ρ Seed) (st : ρ) (fuel : Nat) (st' : ρ),
        g.generateWith (DepthBounded R m) (fun st n t => (acc n t, st)) fuel st = .done (.ok s) st') ↔ CanYield g (depthAllowance m) acc s) ∧
    (∀ x y, (∀ p ∈ g.productions, (p.rhs.map (altWeight x y p)).sum < 2 ^ 32) → ∀ checked,
      ((∃ (ρ Seed : Type) (R : Rng ρ Seed) (st : ρ) (fuel : Nat) (st' : ρ),
        g.generateWith (Weighted R checked x y) (fun st n t => (acc n t, st)) fuel st = .done (.ok s) st') ↔
          CanYield g (weightAllowance x y) acc s)) := by
  refine ⟨⟨?_, ?_⟩, fun m => ⟨?_, ?_⟩, fun x y hs checked => ⟨?_, ?_⟩⟩
  · rintro ⟨_, _, _, _, _, _, h⟩; exact generateWith_yields randomWalk_obeys h
  · rintro ⟨start, w, h1, h2, h3⟩
    obtain ⟨st0, fuel, h⟩ := generateWith_of_yields (S := RandomWalk seqRng) randomWalk_steerable (fun _ => 0) h1 h2 h3
    exact ⟨_, _, _, _, _, _, h⟩
  · rintro ⟨_, _, _, _, _, _, h⟩; exact generateWith_yields (depthBounded_obeys m) h
  · rintro ⟨start, w, h1, h2, h3⟩
    obtain ⟨st0, fuel, h⟩ := generateWith_of_yields (S := DepthBounded seqRng m) (depthBounded_steerable m) (fun _ => 0) h1 h2 h3
    exact ⟨_, _, _, _, _, _, h⟩
  · rintro ⟨_, _, _, _, _, _, h⟩; exact generateWith_yields (weighted_obeys hs) h
  · rintro ⟨start, w, h1, h2, h3⟩
    obtain ⟨st0, fuel, h⟩ := generateWith_of_yields (S := Weighted seqRng checked x y) (weighted_steerable hs) (fun _ => 0) h1 h2 h3
    exact ⟨_, _, _, _, _, _, h⟩

/-- C64: exactly when generation with a callback can run forever, for some random source: a nonterminal for which some text is rejected
can be reached (the same text can come again and again), or there is an infinite path as in C59. -/
theorem C64_endless (g : Grammar) (acc : Str → Str → Bool) :
    ((∃ (ρ Seed : Type) (R : Rng ρ Seed) (st : ρ), ∀ fuel,
        g.generateWith (RandomWalk R) (fun st n t => (acc n t, st)) fuel st = .fuel) ↔ StartEndlessWith g anyAlternative acc) ∧
    (∀ m, (∃ (ρ Seed : Type) (R : Rng ρ Seed) (st : ρ), ∀ fuel,
        g.generateWith (DepthBounded R m) (fun st n t => (acc n t, st)) fuel st = .fuel) ↔ StartEndlessWith g (depthAllowance m) acc) ∧
    (∀ x y, (∀ p ∈ g.productions, (p.rhs.map (altWeight x y p)).sum < 2 ^ 32) → ∀ checked,
      ((∃ (ρ Seed : Type) (R : Rng ρ Seed) (st : ρ), ∀ fuel,
        g.generateWith (Weighted R checked x y) (fun st n t => (acc n t, st)) fuel st = .fuel) ↔
          StartEndlessWith g (weightAllowance x y) acc)) :=
  ⟨⟨fun ⟨_, _, _, _, h⟩ => generateWith_diverges randomWalk_obeys h,
      fun h => have ⟨st, h⟩ := diverging_generateWith randomWalk_steerable h; ⟨_, _, _, st, h⟩⟩,
   fun m => ⟨fun ⟨_, _, _, _, h⟩ => generateWith_diverges (depthBounded_obeys m) h,
      fun h => have ⟨st, h⟩ := diverging_generateWith (depthBounded_steerable m) h; ⟨_, _, _, st, h⟩⟩,
   fun _ _ hs _ => ⟨fun ⟨_, _, _, _, h⟩ => generateWith_diverges (weighted_obeys hs) h,
      fun h => have ⟨st, h⟩ := diverging_generateWith (weighted_steerable hs) h; ⟨_, _, _, st, h⟩⟩⟩

/-- C64: the same for `generate_seeded_callback`. -/
theorem C64_generate_seeded_callback {τ : Type} (g : Grammar) (acc : Str → Str → Bool) (cb : τ) :
    (∀ s, (∃ (ρ Seed : Type) (R : Rng ρ Seed) (rng : ρ) (fuel : Nat) (st' : ρ × τ),
        (g.generateSeededCallback R (fun cb n t => (acc n t, cb)) fuel rng cb).1 = .done (.ok s) st') ↔ CanYield g anyAlternative acc s) ∧
    ((∃ (ρ Seed : Type) (R : Rng ρ Seed) (rng : ρ), ∀ fuel,
        (g.generateSeededCallback R (fun cb n t => (acc n t, cb)) fuel rng cb).1 = .fuel) ↔ StartEndlessWith g anyAlternative acc) := by
  refine ⟨fun s => ⟨?_, ?_⟩, ?_, ?_⟩
  · rintro ⟨ρ, Seed, R, rng, fuel, st', h⟩
    have hp := callback_pair R g acc fuel rng cb
    rw [h] at hp
    exact generateWith_yields randomWalk_obeys hp.symm
  · rintro ⟨start, w, h1, h2, h3⟩
    obtain ⟨st0, fuel, h⟩ := generateWith_of_yields (S := RandomWalk seqRng) randomWalk_steerable (fun _ => 0) h1 h2 h3
    have hp := callback_pair seqRng g acc fuel st0 cb
    rw [show seqRng.fromSeed (seqRng.fill st0).1 = st0 from rfl, h] at hp
    refine ⟨_, _, seqRng, st0, fuel, ?_⟩
    generalize (g.generateSeededCallback seqRng (fun cb n t => (acc n t, cb)) fuel st0 cb).1 = r at hp
    cases r with
    | fuel => cases hp
    | panic => cases hp
    | done r st => simp only [GenRes.map] at hp; injection hp with hp1 hp2; exact ⟨st, by rw [hp1]⟩
  · rintro ⟨ρ, Seed, R, rng, h⟩
    refine generateWith_diverges (S := RandomWalk R) (st := R.fromSeed (R.fill rng).1) randomWalk_obeys fun fuel => ?_
    have hp := callback_pair R g acc fuel rng cb
    rw [h] at hp
    exact hp.symm
  · intro h
    obtain ⟨st, hst⟩ := diverging_generateWith randomWalk_steerable h
    refine ⟨_, _, seqRng, st, fun fuel => ?_⟩
    have hp := callback_pair seqRng g acc fuel st cb
    rw [show seqRng.fromSeed (seqRng.fill st).1 = st from rfl, hst] at hp
    generalize (g.generateSeededCallback seqRng (fun cb n t => (acc n t, cb)) fuel st cb).1 = r at hp
    cases r with
    | fuel => rfl
    | panic => cases hp
    | done r st => cases hp

/-- C64: otherwise generation ends, within a bound that does not depend on the random source (nor on the strategy, as long as it makes
allowed choices). -/
theorem C64_otherwise_bounded (g : Grammar) (acc : Str → Str → Bool) :
    (¬ StartEndlessWith g anyAlternative acc → ∃ fuel, ∀ (ρ Seed : Type) (R : Rng ρ Seed) (st : ρ), ∃ r st',
      g.generateWith (RandomWalk R) (fun st n t => (acc n t, st)) fuel st = .done r st') ∧
    (∀ m, ¬ StartEndlessWith g (depthAllowance m) acc → ∃ fuel, ∀ (ρ Seed : Type) (R : Rng ρ Seed) (st : ρ), ∃ r st',
      g.generateWith (DepthBounded R m) (fun st n t => (acc n t, st)) fuel st = .done r st') ∧
    (∀ x y, (∀ p ∈ g.productions, (p.rhs.map (altWeight x y p)).sum < 2 ^ 32) → ¬ StartEndlessWith g (weightAllowance x y) acc →
      ∃ fuel, ∀ (ρ Seed : Type) (R : Rng ρ Seed) (checked : Bool) (st : ρ), ∃ r st',
        g.generateWith (Weighted R checked x y) (fun st n t => (acc n t, st)) fuel st = .done r st') := by
  refine ⟨fun h => ?_, fun m h => ?_, fun x y hs h => ?_⟩
  · obtain ⟨fuel, hf⟩ := generateWith_bounded (A := anyAlternative) id h
    exact ⟨fuel, fun ρ Seed R st => hf _ _ randomWalk_obeys st⟩
  · obtain ⟨fuel, hf⟩ := generateWith_bounded (A := depthAllowance m) (fun h => h.1) h
    exact ⟨fuel, fun ρ Seed R st => hf _ _ (depthBounded_obeys m) st⟩
  · obtain ⟨fuel, hf⟩ := generateWith_bounded (A := weightAllowance x y) (fun h => h.1) h
    exact ⟨fuel, fun ρ Seed R checked st => hf _ _ (weighted_obeys hs) st⟩

/-- C64: with a callback that accepts everything this is the condition of C59. -/
theorem C64_accept_all (g : Grammar) (A : Allowance) : StartEndlessWith g A (fun _ _ => true) ↔ StartEndless g A := by
  unfold StartEndlessWith StartEndless
  simp only [endlessWith_true]

/-- C64: if the callback, with whatever state, accepts no text for the starting nonterminal, no call of generation returns a sentence. -/
theorem C64_start_rejected {σ : Type} {g : Grammar} {S : Strategy σ} (hS : Faithful S) {f : Callback σ} {start : Str}
    (hs : g.startingTerm = some (.nonterminal start)) (hf : ∀ st t, (f st start t).1 = false) (fuel : Nat) (st : σ) (s : Str) (st' : σ) :
    g.generateWith S f fuel st ≠ .done (.ok s) st' := by
  intro h
  obtain ⟨start', log, L, h1, _, h3, h4, h5⟩ := C35_expansions_accepted hS h
  rw [hs] at h1; injection h1 with h1; injection h1 with h1; subst h1
  have : ∃ v, (start, v) ∈ L := by
    cases h3 with
    | undeclared hd _ =>
      refine absurd ?_ hd
      unfold Grammar.startingTerm at hs
      cases hp : g.productions with
      | nil => simp [hp] at hs
      | cons p ps => simp [hp] at hs; exact ⟨p, by simp [hp], hs⟩
    | nonterminal _ _ _ _ _ => exact ⟨_, List.mem_append_right _ (List.mem_cons_self ..)⟩
  obtain ⟨v, hv⟩ := this
  obtain ⟨st1, st2, h6⟩ := h5 _ (h4.subset hv)
  have := hf st1 v
  rw [h6] at this
  cases this

/-- With a callback that rejects `"y"` for `<t>`, generation with `gExp` can try `"y"` forever. -/
example : StartEndlessWith gExp anyAlternative (fun n t => !(n == ['t'] && t == ['y'])) := by
  have hrej : Rejectable gExp anyAlternative (fun n t => !(n == ['t'] && t == ['y'])) 1 ['t'] :=
    ⟨gExp.productions[1], ⟨[.terminal ['y']]⟩, ['y'] ++ [], ⟨[gExp.productions[0]], [], rfl, rfl, by simp [gExp]⟩,
      by simp [NoChoice, gExp], by simp [anyAlternative, gExp], .terminal .nil, by decide⟩
  refine ⟨['e'], ['y'], rfl, ?_, .inl (.step (m := ['t']) ?_ (.here hrej))⟩
  · exact ⟨⟨.nonterminal ['e'], [.nonterminal (.nonterminal ['t']) [.terminal ['y']]]⟩, rfl,
      ⟨⟨[.nonterminal ['t']]⟩, ⟨gExp.productions[0], by simp [gExp], rfl, by simp [gExp]⟩,
        .nonterminal (e := ⟨[.terminal ['y']]⟩) ⟨gExp.productions[1], by simp [gExp], rfl, by simp [gExp]⟩ (.terminal .nil) .nil⟩, rfl⟩
  · exact ⟨gExp.productions[0], ⟨[.nonterminal ['t']]⟩, [], [], [], ⟨[], [gExp.productions[1]], rfl, rfl, by simp⟩,
      by simp [NoChoice, gExp], by simp [anyAlternative, gExp], rfl, .nil⟩

/-- A callback that accepts exactly `"x"` for `<s>` in `gAgain`: the sentence `"x"` can be returned. -/
example : CanYield gAgain anyAlternative (fun n t => n == ['s'] && t == ['x']) ['x'] :=
  ⟨['s'], ['x'], rfl, ⟨⟨.nonterminal ['s'], [.terminal ['x']]⟩, rfl,
      ⟨⟨[.terminal ['x']]⟩, ⟨gAgain.productions[0], by simp [gAgain], rfl, by simp [gAgain]⟩, .terminal .nil⟩, rfl⟩,
    .expand (p := gAgain.productions[0]) (e := ⟨[.terminal ['x']]⟩) (v := ['x']) (w := []) ⟨[], [], rfl, rfl, by simp⟩
      (by simp [NoChoice, gAgain]) (by simp [anyAlternative, gAgain]) (.terminal .nil) (by decide) .nil⟩

end Bnf.Props
