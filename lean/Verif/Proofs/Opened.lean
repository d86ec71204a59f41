import Verif.Proofs.Terminate

/-! Facts about iterators from the public entry points. -/

set_option autoImplicit false

namespace Bnf
open Spec

theorem Spec.Opened.inv {g S input it} (h : Opened g S input it) :
    ItInv g S input it ∧ ∀ k, ¬ Popped it.st k := by
  cases h with
  | @parserStarting ord p _ hb hi =>
    obtain ⟨it', h1, h2, h3, _⟩ := new_inv (buildParser_ok hb).2 input S
    unfold GrammarParser.parseInputStartingWith at hi
    rw [h1] at hi; injection hi with hi; subst hi
    exact ⟨h2, h3⟩
  | @parser ord p _ hb hs hi =>
    obtain ⟨it', h1, h2, h3, _⟩ := new_inv (buildParser_ok hb).2 input S
    unfold GrammarParser.parseInput GrammarParser.parseInputStartingWith at hi
    have := (buildParser_ok hb).1
    rw [hs] at this; injection this with this
    rw [← this, h1] at hi; injection hi with hi; subst hi
    exact ⟨h2, h3⟩
  | deprecatedStarting hi =>
    unfold Grammar.parseInputStartingWithDeprecated Grammar.newUnchecked at hi
    split at hi
    · cases hi
    · rename_i p hp
      split at hp
      · cases hp
      · injection hp with hp
        obtain ⟨it', h1, h2, h3, _⟩ := new_inv (p := p) (g := g) (by rw [← hp]) input S
        rw [h1] at hi; injection hi with hi; subst hi
        exact ⟨h2, h3⟩
  | deprecated hs hi =>
    unfold Grammar.parseInputDeprecated Grammar.newUnchecked at hi
    rw [hs] at hi
    simp only at hi
    obtain ⟨it', h1, h2, h3, _⟩ := new_inv (p := ⟨S, ParseGrammar.newUnchecked g⟩) (g := g) rfl input S
    unfold ParseTreeIter.new at h1 hi
    simp only [Option.getD_some, Option.getD_none] at h1 hi
    rw [h1] at hi; injection hi with hi; subst hi
    exact ⟨h2, h3⟩

theorem Spec.Reach.inv {g S input it it'} (h : Reach it it') (hi : ItInv g S input it) : ItInv g S input it' := by
  induction h with
  | refl => exact hi
  | @step it r it1 it2 hn _ ih =>
    cases r with
    | none => exact ih (Next.none_rounds hi hn).2.1
    | some t => obtain ⟨_, _, h, _⟩ := Next.some_rounds hi hn; exact ih h

/-- An exhausted iterator has seen every forest for a start alternative that derives a prefix of the input. -/
theorem ended_finite {g S input it0 it1 it2 ts} (hi0 : ItInv g S input it0)
    (hd : Draws it0 ts it1) (hn : Next it1 none it2) {e : Expression} (ha : HasAlt g S e) :
    {ns | IsForest g e.terms ns ∧ ∃ r, input = Spec.yield ns ++ r}.Finite := by
  obtain ⟨_, _, hi1, _⟩ := hd.rounds hi0
  obtain ⟨_, hi2, hq, _⟩ := Next.none_rounds hi1 hn
  obtain ⟨i, p, hp, hl, hrhs⟩ := hasAlt_prod ha
  obtain ⟨k0, hk0⟩ := hi2.inv.startRoots i p hp hl
  obtain ⟨tr0, htr0, hs0, hpr0, hst0⟩ := (hi2.inv.s.roots _ _ _).mp hk0
  obtain ⟨hlen0, _, hun0⟩ := (hi2.inv.s.entries k0 tr0 htr0).root hs0
  have ht0 : tr0.total = 0 := by simp only [Traversal.total, InputRange.totalLen]; omega
  have hsub : {ns | IsForest g e.terms ns ∧ ∃ r, input = Spec.yield ns ++ r} ⊆
      ⋃ k ∈ {k : Nat | k < it2.st.tree.arena.length},
        {ns | ∃ ks, Den it2.st.tree.arena k ks ∧ ns = erase (ParseGrammar.newUnchecked g) ks} := by
    rintro ns ⟨hf, r, hr⟩
    obtain ⟨ks, hv, he⟩ := forest_VF hf
    obtain ⟨e1, st1, id, tr, hr1, hid, _, _, _, _, hden⟩ := eventually_extended (PGOk.newUnchecked g) hv (us := [])
      (r := r) hi2.inv htr0 (by rw [List.append_nil, ← hrhs]; exact hun0 p (by rw [hpr0]; exact hp))
      (by rw [ht0, ← yield_erase (ParseGrammar.newUnchecked g), he, ← hr]; simp) (.root htr0 hs0)
    obtain ⟨_, rfl⟩ := rounds_empty hr1 hq
    simp only [Set.mem_iUnion]
    exact ⟨id, (List.getElem?_eq_some_iff.mp hid).1, ks, by simpa using hden, he.symm⟩
  refine Set.Finite.subset (Set.Finite.biUnion (Set.finite_lt_nat _) ?_) hsub
  intro k _
  refine Set.Subsingleton.finite ?_
  rintro a ⟨ks, h1, rfl⟩ b ⟨ks', h2, rfl⟩
  rw [h1.fun h2]

/-- Either the call returns or it diverges. -/
theorem next_trichotomy {g S input it} (hi : ItInv g S input it) :
    (∃ r it', Next it r it') ∨ Diverges it := by
  by_cases h : ∃ fuel r, it.next fuel = .returned r
  · obtain ⟨fuel, ⟨r, it'⟩, h⟩ := h
    exact .inl ⟨r, it', fuel, h⟩
  · refine .inr fun fuel => ?_
    cases hn : it.next fuel with
    | outOfFuel => rfl
    | panic => exact absurd hn (next_no_panic hi fuel)
    | returned r => exact absurd ⟨fuel, r, hn⟩ h

end Bnf
