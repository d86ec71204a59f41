import Verif.Proofs.Coverage
import Verif.Proofs.Callback
import Verif.Model.Api

/-! # C91: what repeated coverage-guided generation is sure to use -/

set_option autoImplicit false

namespace Bnf.Props
open Bnf Bnf.Spec

variable {ρ Seed : Type}

/-- C91: take a new `CoverageGuided`, any random source, any callback (that does not reach into the strategy), and generate any number
of texts from one grammar.  If the nonterminal `x` cannot be avoided from the start, and at least as many texts were returned as `x` has
alternatives, then each of these alternatives was chosen. -/
theorem C91_covered (R : Rng ρ Seed) {g : Grammar} {f : Callback (WState ρ)} (hf : ∀ st n t, (f st n t).2 = st) {start x : Str}
    {p : Production} (hs : g.startingTerm = some (.nonterminal start)) (hx : IsFirst g x p) (hu : Unavoidable g x start) {rng : ρ}
    {ss : List Str} {st' : WState ρ} (h : Calls g (Watched (CoverageGuided R)) f (([], rng), []) ss st') (hn : p.rhs.length ≤ ss.length) :
    ∀ e ∈ p.rhs, (p, e) ∈ st'.2 := by
  intro e he
  obtain ⟨a, ha⟩ := find_of_isFirst hx
  obtain ⟨h1, h2⟩ := calls_grow hf ha hs hu h
  obtain ⟨i, hi, rfl⟩ := List.mem_iff_getElem.1 he
  have h3 := seenCount_full (a := a) (n := p.rhs.length) (seen := st'.1.1) (by
    have : wcount a p.rhs.length st' = seenCount a p.rhs.length st'.1.1 := rfl
    omega) i hi
  obtain ⟨e, h4, h5⟩ := h1 (by intro a i p h; simp at h) a i p h3 (find_index ha)
  rw [List.getElem?_eq_getElem hi] at h4
  injection h4 with h4
  rw [h4]; exact h5

/-- C91: in particular the alternatives of the first production. -/
theorem C91_start (R : Rng ρ Seed) {g : Grammar} {f : Callback (WState ρ)} (hf : ∀ st n t, (f st n t).2 = st) {p : Production}
    {ps : List Production} (hg : g.productions = p :: ps) {rng : ρ} {ss : List Str} {st' : WState ρ}
    (h : Calls g (Watched (CoverageGuided R)) f (([], rng), []) ss st') (hn : p.rhs.length ≤ ss.length) :
    ∀ e ∈ p.rhs, (p, e) ∈ st'.2 := by
  cases hl : p.lhs with
  | terminal t =>
    cases h with
    | nil st =>
      have : p.rhs = [] := by simpa using hn
      simp [this]
    | cons h1 _ =>
      obtain ⟨q, qs, y, h2, h3, _⟩ := generateWith_ok h1
      rw [hg] at h2
      injection h2 with h2
      rw [← h2, hl] at h3
      cases h3
  | nonterminal x =>
    exact C91_covered R hf (start := x) (x := x) (by simp [Grammar.startingTerm, hg, hl]) ⟨[], ps, by simp [hg], hl, by simp⟩ .self h hn

/-- C91: watching changes nothing: the same calls return the same texts, and leave the same strategy value. -/
theorem C91_watched {σ : Type} (S : Strategy σ) (f : Callback σ) (g : Grammar) (fuel : Nat) (st : σ) (log : List (Production × Expression)) :
    (g.generateWith (Watched S) (fun w n t => ((f w.1 n t).1, ((f w.1 n t).2, w.2))) fuel (st, log)).map Prod.fst =
      g.generateWith S f fuel st := by
  have key := fun x => (traverse_map (π := (Prod.fst : σ × List (Production × Expression) → σ)) (g := g) (S := Watched S) (S' := S)
    (f := fun w n t => ((f w.1 n t).1, ((f w.1 n t).2, w.2))) (f' := f) (fun _ => True) (fun _ _ _ _ _ => trivial) (fun _ _ _ _ => trivial)
    (fun w a p d _ _ => by
      simp only [Watched]
      rcases S.choose w.1 a p d with ⟨c, s⟩
      cases c <;> rfl) (fun _ _ _ _ => rfl) fuel x 0 (st, log) trivial).1
  unfold Grammar.generateWith
  cases g.terminates with
  | none => rfl
  | some b =>
    cases b with
    | false => rfl
    | true =>
      simp only
      cases g.productions with
      | nil => rfl
      | cons p ps =>
        simp only
        cases p.lhs with
        | terminal t => rfl
        | nonterminal x => exact key x

/-- `<s> ::= <a> ';'`, `<a> ::= 'y' <b> | <b>`, `<b> ::= 'z' | 'w'`. -/
def avoidless : Grammar := ⟨[
  ⟨.nonterminal ['s'], [⟨[.nonterminal ['a'], .terminal [';']]⟩]⟩,
  ⟨.nonterminal ['a'], [⟨[.terminal ['y'], .nonterminal ['b']]⟩, ⟨[.nonterminal ['b']]⟩]⟩,
  ⟨.nonterminal ['b'], [⟨[.terminal ['z']]⟩, ⟨[.terminal ['w']]⟩]⟩]⟩

/-- A nontrivial case: `b` cannot be avoided in `avoidless`. -/
example : Unavoidable avoidless ['b'] ['s'] := by
  refine .step (p := ⟨.nonterminal ['s'], [⟨[.nonterminal ['a'], .terminal [';']]⟩]⟩) (fun _ => ['a'])
    ⟨[], _, rfl, rfl, by simp⟩ (by simp) (fun e _ => ?_)
  refine .step (p := ⟨.nonterminal ['a'], [⟨[.terminal ['y'], .nonterminal ['b']]⟩, ⟨[.nonterminal ['b']]⟩]⟩) (fun _ => ['b'])
    ⟨[_], _, rfl, rfl, by simp⟩ (by simp) (fun e _ => .self)

/-- A random source that always picks the last possibility. -/
def lastRng : Rng Unit Unit where
  index _ n := (n - 1, ())
  u32 _ n := (n - 1, ())
  fill _ := ((), ())
  fromSeed _ := ()
  index_lt _ n h := by show n - 1 < n; omega
  u32_lt _ n h := by show n - 1 < n; omega

/-- `<s> ::= <a> | 'x'`, `<a> ::= 'y' | 'z'`. -/
def starved : Grammar := ⟨[
  ⟨.nonterminal ['s'], [⟨[.nonterminal ['a']]⟩, ⟨[.terminal ['x']]⟩]⟩,
  ⟨.nonterminal ['a'], [⟨[.terminal ['y']]⟩, ⟨[.terminal ['z']]⟩]⟩]⟩

theorem starved_step {fuel : Nat} {st st' : List (Nat × Nat) × Unit} {s : Str}
    (hst : st.1 = [] ∨ st.1 = [(0, 1)] ∨ (0, 0) ∈ st.1 ∧ (0, 1) ∈ st.1)
    (h : starved.generateSeededWithStrategy (CoverageGuided lastRng) fuel st = .done (.ok s) st') :
    s ≠ ['y'] ∧ (st'.1 = [(0, 1)] ∨ (0, 0) ∈ st'.1 ∧ (0, 1) ∈ st'.1) := by
  obtain ⟨seen, ⟨⟩⟩ := st
  obtain ⟨p, ps, x, h1, h2, h⟩ := generateWith_ok h
  have : x = ['s'] := by
    simp only [starved, List.cons.injEq] at h1
    rw [← h1.1] at h2
    simpa using h2.symm
  subst this
  clear h1 h2
  simp only at hst
  match fuel with
  | 0 => simp [traverse] at h
  | 1 =>
    rcases hst with rfl | rfl | ⟨h0, h1⟩
    · cases h; exact ⟨by decide, .inl rfl⟩
    · simp [traverse, starved, findProduction, productionHasNoChoice, CoverageGuided, pickFrom, randomIndex, lastRng, getExpression, evalTerms, List.range, List.range.loop] at h
    · simp [traverse, starved, findProduction, productionHasNoChoice, CoverageGuided, pickFrom, randomIndex, lastRng, getExpression, evalTerms, List.range, List.range.loop, h0, h1] at h
      rw [← h.1, ← h.2]
      exact ⟨by decide, .inr ⟨by simp [h0], by simp⟩⟩
  | n + 2 =>
    rcases hst with rfl | rfl | ⟨h0, h1⟩
    · cases h; exact ⟨by decide, .inl rfl⟩
    · cases h; exact ⟨by decide, .inr (by decide)⟩
    · simp [traverse, starved, findProduction, productionHasNoChoice, CoverageGuided, pickFrom, randomIndex, lastRng, getExpression, evalTerms, List.range, List.range.loop, h0, h1] at h
      rw [← h.1, ← h.2]
      exact ⟨by decide, .inr ⟨by simp [h0], by simp⟩⟩

/-- C91 (disagreement with the documentation): "fully explores all options" does not hold for nonterminals that can be avoided. With
this grammar and random source no number of calls ever generates `y`. -/
theorem C91_starved {ss : List Str} {st' : List (Nat × Nat) × Unit}
    (h : Calls starved (CoverageGuided lastRng) (fun st _ _ => (true, st)) ([], ()) ss st') : ['y'] ∉ ss := by
  have key : ∀ {st st' : List (Nat × Nat) × Unit} {ss : List Str}, Calls starved (CoverageGuided lastRng) (fun st _ _ => (true, st)) st ss st' →
      (st.1 = [] ∨ st.1 = [(0, 1)] ∨ (0, 0) ∈ st.1 ∧ (0, 1) ∈ st.1) → ['y'] ∉ ss := by
    intro st st' ss h
    induction h with
    | nil => simp
    | cons h1 _ ih =>
      intro hst
      obtain ⟨h2, h3⟩ := starved_step hst h1
      simp only [List.mem_cons, not_or]
      exact ⟨fun h => h2 h.symm, ih (.inr h3)⟩
  exact key h (.inl rfl)

/-- The calls do return: three of them give `x`, `z`, `x`. -/
example : ∃ st', Calls starved (CoverageGuided lastRng) (fun st _ _ => (true, st)) ([], ()) [['x'], ['z'], ['x']] st' :=
  ⟨_, .cons (fuel := 5) rfl (.cons (fuel := 5) rfl (.cons (fuel := 5) rfl (.nil _)))⟩

/-- `<s> ::= 'a' | 'b'`, `<q> ::= 'c' | 'd'`. -/
def beforeRemoval : Grammar := ⟨[
  ⟨.nonterminal ['s'], [⟨[.terminal ['a']]⟩, ⟨[.terminal ['b']]⟩]⟩,
  ⟨.nonterminal ['q'], [⟨[.terminal ['c']]⟩, ⟨[.terminal ['d']]⟩]⟩]⟩

/-- The same after `remove_production` of the first production: `<q> ::= 'c' | 'd'`, now where `<s>` was. -/
def afterRemoval : Grammar := ⟨[⟨.nonterminal ['q'], [⟨[.terminal ['c']]⟩, ⟨[.terminal ['d']]⟩]⟩]⟩

theorem afterRemoval_eq : beforeRemoval.removeProduction ⟨.nonterminal ['s'], [⟨[.terminal ['a']]⟩, ⟨[.terminal ['b']]⟩]⟩ =
    some (some ⟨.nonterminal ['s'], [⟨[.terminal ['a']]⟩, ⟨[.terminal ['b']]⟩]⟩, afterRemoval) := by decide +kernel

theorem afterRemoval_step {fuel : Nat} {st st' : List (Nat × Nat) × Unit} {s : Str} (h0 : (0, 0) ∈ st.1) (h1 : (0, 1) ∈ st.1)
    (h : afterRemoval.generateSeededWithStrategy (CoverageGuided lastRng) fuel st = .done (.ok s) st') :
    s = ['d'] ∧ (0, 0) ∈ st'.1 ∧ (0, 1) ∈ st'.1 := by
  obtain ⟨seen, ⟨⟩⟩ := st
  obtain ⟨p, ps, x, h2, h3, h⟩ := generateWith_ok h
  have : x = ['q'] := by
    simp only [afterRemoval, List.cons.injEq] at h2
    rw [← h2.1] at h3
    simpa using h3.symm
  subst this
  simp only at h0 h1
  match fuel with
  | 0 => simp [traverse] at h
  | n + 1 =>
    simp [traverse, afterRemoval, findProduction, productionHasNoChoice, CoverageGuided, pickFrom, randomIndex, lastRng, getExpression, evalTerms, List.range, List.range.loop, h0, h1] at h
    rw [← h.1, ← h.2]
    exact ⟨rfl, by simp [h0], by simp⟩

/-- C91 (disagreement with the documentation): what was covered is remembered by the place of the production in memory, so it is
inherited by the production that `remove_production` moves there.  Two texts from `beforeRemoval`, then the removal: from then on no
number of further calls generates `c`, although this alternative was never used. -/
theorem C91_stale {s₁ s₂ : Str} {st₁ : List (Nat × Nat) × Unit}
    (h₁ : Calls beforeRemoval (CoverageGuided lastRng) (fun st _ _ => (true, st)) ([], ()) [s₁, s₂] st₁) {ss : List Str}
    {st₂ : List (Nat × Nat) × Unit} (h₂ : Calls afterRemoval (CoverageGuided lastRng) (fun st _ _ => (true, st)) st₁ ss st₂) :
    ∀ s ∈ s₁ :: s₂ :: ss, s ≠ ['c'] := by
  have hst : s₁ ≠ ['c'] ∧ s₂ ≠ ['c'] ∧ (0, 0) ∈ st₁.1 ∧ (0, 1) ∈ st₁.1 := by
    cases h₁ with
    | @cons _ _ _ f1 _ _ a b =>
      cases b with
      | @cons _ _ _ f2 _ _ b c =>
        cases c
        match f1, f2 with
        | 0, _ => cases a
        | _ + 1, 0 => cases b
        | _ + 1, _ + 1 => cases a; cases b; decide
  have key : ∀ {st st' : List (Nat × Nat) × Unit} {ss : List Str}, Calls afterRemoval (CoverageGuided lastRng) (fun st _ _ => (true, st)) st ss st' →
      (0, 0) ∈ st.1 → (0, 1) ∈ st.1 → ∀ s ∈ ss, s = ['d'] := by
    intro st st' ss h
    induction h with
    | nil => simp
    | cons h1 _ ih =>
      intro a b
      obtain ⟨h2, h3, h4⟩ := afterRemoval_step a b h1
      simp only [List.mem_cons, forall_eq_or_imp]
      exact ⟨h2, ih h3 h4⟩
  simp only [List.mem_cons, forall_eq_or_imp]
  exact ⟨hst.1, hst.2.1, fun s hs => by rw [key h₂ hst.2.2.1 hst.2.2.2 s hs]; decide⟩

/-- Such calls exist. -/
example : ∃ st₁ st₂, Calls beforeRemoval (CoverageGuided lastRng) (fun st _ _ => (true, st)) ([], ()) [['b'], ['a']] st₁ ∧
    Calls afterRemoval (CoverageGuided lastRng) (fun st _ _ => (true, st)) st₁ [['d'], ['d'], ['d']] st₂ :=
  ⟨_, _, .cons (fuel := 5) rfl (.cons (fuel := 5) rfl (.nil _)),
    .cons (fuel := 5) rfl (.cons (fuel := 5) rfl (.cons (fuel := 5) rfl (.nil _)))⟩

/-- A new strategy value does generate it. -/
example : ∃ st₂, Calls afterRemoval (CoverageGuided lastRng) (fun st _ _ => (true, st)) ([], ()) [['d'], ['c']] st₂ :=
  ⟨_, .cons (fuel := 5) rfl (.cons (fuel := 5) rfl (.nil _))⟩

end Bnf.Props
