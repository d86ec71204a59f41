import Verif.Proofs.Script
import Verif.Props.Validation
import Verif.Props.Parsing

/-! # Properties C33–C41 and C51: generation of sentences -/

set_option autoImplicit false

namespace Bnf.Props
open Bnf Spec

/-! ## Examples -/

/-- `<a> ::= <a>`: not productive. -/
def gLoop : Grammar := ⟨[⟨.nonterminal ['a'], [⟨[.nonterminal ['a']]⟩]⟩]⟩

/-- `<s> ::= 'x' | <u>` with `<u>` not defined. -/
def gOpen : Grammar := ⟨[⟨.nonterminal ['s'], [⟨[.terminal ['x']]⟩, ⟨[.nonterminal ['u']]⟩]⟩]⟩

/-- `<s> ::= <s> <b> | <b>`, `<b> ::= 'x' | <b> 'y'`. -/
def gStuck : Grammar := ⟨[⟨.nonterminal ['s'], [⟨[.nonterminal ['s'], .nonterminal ['b']]⟩, ⟨[.nonterminal ['b']]⟩]⟩,
  ⟨.nonterminal ['b'], [⟨[.terminal ['x']]⟩, ⟨[.nonterminal ['b'], .terminal ['y']]⟩]⟩]⟩

/-- `<a> ::= <a>`, `<a> ::= 'x'`. -/
def gTwice : Grammar := ⟨[⟨.nonterminal ['a'], [⟨[.nonterminal ['a']]⟩]⟩, ⟨.nonterminal ['a'], [⟨[.terminal ['x']]⟩]⟩]⟩

/-- `<a> ::= <b> 'x'`, `<b> ::= ` with a single alternative without terms. -/
def gBare : Grammar := ⟨[⟨.nonterminal ['a'], [⟨[.nonterminal ['b'], .terminal ['x']]⟩]⟩, ⟨.nonterminal ['b'], [⟨[]⟩]⟩]⟩

/-! ## C33: `terminates` -/

/-- C33: `terminates()` returns, and returns true exactly if there are no productions or the starting term derives some string. -/
theorem C33_terminates_iff (g : Grammar) : ∃ b, g.terminates = some b ∧
    (b = true ↔ g.productions = [] ∨ ∃ S w, g.startingTerm = some S ∧ Derives g S w) := by
  obtain ⟨b, h1, h2⟩ := terminates_spec g
  refine ⟨b, h1, h2.trans (or_congr Iff.rfl ⟨?_, ?_⟩)⟩
  · rintro ⟨S, hS, w, hw⟩; exact ⟨S, w, hS, hw⟩
  · rintro ⟨S, w, hS, hw⟩; exact ⟨S, hS, w, hw⟩

example : gExp.terminates = some true ∧ gLoop.terminates = some false := ⟨by decide, by decide⟩

/-! ## C34, C35: generated sentences -/

theorem generated_expansion {g : Grammar} {s : Str} (h : Generated g s) :
    ∃ start L, g.startingTerm = some (.nonterminal start) ∧ Expansion g [.nonterminal start] s L := by
  have key : ∀ {σ : Type} {S : Strategy σ} {f : Callback σ} {fuel : Nat} {st st' : σ}, Faithful S →
      g.generateWith S f fuel st = .done (.ok s) st' →
      ∃ start L, g.startingTerm = some (.nonterminal start) ∧ Expansion g [.nonterminal start] s L := by
    intro σ S f fuel st st' hS h
    have hu := generate_unlog (g := g) (S := S) (f := f) fuel (st, [])
    rw [h] at hu
    cases hl : g.generateWith (logStrategy S) (logCallback f) fuel (st, []) with
    | fuel => rw [hl] at hu; cases hu
    | panic => rw [hl] at hu; cases hu
    | done r st1 =>
      rw [hl] at hu
      simp only [unlog, GenRes.done.injEq] at hu
      obtain ⟨rfl, _⟩ := hu
      obtain ⟨start, h1, h2⟩ := generate_ok_start hl
      obtain ⟨new, L, _, _, h3, _⟩ := traverse_logged hS _ _ _ _ _ _ _ _ h2
      exact ⟨start, L, h1, h3⟩
  have walk : ∀ {ρ Seed τ : Type} {R : Rng ρ Seed}, Faithful (⟨fun st a p d => (((RandomWalk R).choose st.1 a p d).1,
      (((RandomWalk R).choose st.1 a p d).2, st.2))⟩ : Strategy (ρ × τ)) := by
    intro ρ Seed τ R st a p d e st' h
    simp only [Prod.mk.injEq] at h
    exact randomWalk_faithful (R := R) st.1 a p d e ((RandomWalk R).choose st.1 a p d).2 (by rw [← h.1])
  cases h with
  | callbackWithStrategy hS h => exact key hS h
  | withStrategy hS h => exact key hS h
  | seededCallback h => exact key walk (congrArg Prod.fst h)
  | seeded h => exact key randomWalk_faithful (congrArg Prod.fst h)
  | callback h => exact key walk h
  | plain h => exact key walk h

/-- C34: a sentence returned by any of the generation functions is derivable from the left-hand side of the first production, in a
grammar in which every referenced nonterminal has a production.  Any strategy that returns alternatives of the given production,
any callback and any random source. -/
theorem C34_generated_derivable {g : Grammar} (hd : FullyDeclared g) {s : Str} (h : Generated g s) :
    ∃ start, g.startingTerm = some start ∧ Derives g start s := by
  obtain ⟨start, L, h1, h2⟩ := generated_expansion h
  refine ⟨_, h1, ?_⟩
  obtain ⟨ns, h3, h4, _⟩ := expansion_forest hd h2 (by
    intro n hn
    simp at hn; subst hn
    unfold Grammar.startingTerm at h1
    cases hp : g.productions with
    | nil => simp [hp] at h1
    | cons p ps => simp [hp] at h1; exact ⟨p, by simp [hp], h1⟩)
  cases h3 with
  | nonterminal ha hf hn =>
    cases hn
    exact ⟨⟨_, _⟩, rfl, ⟨_, ha, hf⟩, by simpa [Spec.yield, nodeYield] using h4⟩

/-- C34: if `build_parser()` succeeds, `parse_input` of a generated sentence returns a tree in its first call. -/
theorem C34_generated_parsed {g : Grammar} {ord : List Str → List Str} (hord : ∀ l, (ord l).Perm l) {p : GrammarParser}
    (hp : g.buildParser ord = .ok p) {s : Str} (h : Generated g s) :
    ∃ it t it', p.parseInput s = some it ∧ Next it (some t) it' ∧ ∃ start, IsParse g start s t := by
  have hok := (C14_build_parser_ok_iff ord hord g).1 ⟨p, hp⟩
  obtain ⟨start, h1, h2⟩ := C34_generated_derivable (g := g) (fun n hn => by
    obtain ⟨e, q, hq, hl, _⟩ := hok.2 n hn; exact ⟨q, hq, hl⟩) h
  obtain ⟨it, h3, _⟩ := new_inv (buildParser_ok hp).2 s p.startingTerm
  have h4 : p.parseInput s = some it := h3
  have ho : Opened g start s it := .parser hp h1 h4
  obtain ⟨t, it', h5, h6⟩ := C03_first_call_returns ho h2
  exact ⟨it, t, it', h4, h5, start, h6⟩

/-- A nonterminal without production is emitted as its bare name, which is not a sentence of the language. -/
theorem C34_undefined_witness : Generated gOpen ['u'] ∧ ¬ ∃ start, gOpen.startingTerm = some start ∧ Derives gOpen start ['u'] := by
  refine ⟨.plain (R := scriptRng) (fuel := 5) (seed := [1]) (st := ([], ())) rfl, ?_⟩
  rintro ⟨start, h, t, hr, ⟨e, ⟨p, hp, hl, he⟩, hf⟩, hy⟩
  simp [gOpen] at hp
  subst hp
  simp at he
  rcases he with rfl | rfl
  · generalize hk : t.rhs = k at hf hy
    cases hf with
    | terminal h' => cases h'; simp [Spec.yield, nodeYield] at hy
  · generalize hk : t.rhs = k at hf hy
    cases hf with
    | nonterminal ha _ _ =>
      obtain ⟨q, hq, hl', _⟩ := ha
      simp [gOpen] at hq; subst hq; simp at hl'

example : FullyDeclared gExp ∧ Generated gExp ['y', '+', 'é'] := by
  refine ⟨?_, .plain (R := scriptRng) (fuel := 20) (seed := [0, 1, 1, 0]) (st := ([], ())) rfl⟩
  rintro n ⟨lhs, e, ⟨p, hp, _, he⟩, hn⟩
  simp [gExp] at hp
  rcases hp with rfl | rfl
  · simp at he
    rcases he with rfl | rfl
    · simp at hn; rcases hn with rfl | rfl
      · exact ⟨gExp.productions[0], by simp [gExp], rfl⟩
      · exact ⟨gExp.productions[1], by simp [gExp], rfl⟩
    · simp at hn; subst hn; exact ⟨gExp.productions[1], by simp [gExp], rfl⟩
  · simp at he; rcases he with rfl | rfl <;> simp at hn

/-- C35: log the accepted calls of the callback; this does not change the outcome, and the expansions that make up the sentence
(children before parents, left to right) are a sublist of the logged calls: for every nonterminal occurrence, the callback was
called with its name and exactly the text it contributed, and returned true.  All grammars, also with undefined nonterminals. -/
theorem C35_expansions_accepted {σ : Type} {g : Grammar} {S : Strategy σ} {f : Callback σ} (hS : Faithful S) {fuel : Nat} {st st' : σ}
    {s : Str} (h : g.generateWith S f fuel st = .done (.ok s) st') :
    ∃ start log L, g.startingTerm = some (.nonterminal start) ∧
      g.generateWith (logStrategy S) (logCallback f) fuel (st, []) = .done (.ok s) (st', log) ∧
      Expansion g [.nonterminal start] s L ∧ L.Sublist log ∧ ∀ x ∈ log, ∃ st st', f st x.1 x.2 = (true, st') := by
  have hu := generate_unlog (g := g) (S := S) (f := f) fuel (st, [])
  rw [h] at hu
  cases hl : g.generateWith (logStrategy S) (logCallback f) fuel (st, []) with
  | fuel => rw [hl] at hu; cases hu
  | panic => rw [hl] at hu; cases hu
  | done r st1 =>
    rw [hl] at hu
    obtain ⟨st1, log⟩ := st1
    simp only [unlog, GenRes.done.injEq] at hu
    obtain ⟨rfl, rfl⟩ := hu
    obtain ⟨start, h1, h2⟩ := generate_ok_start hl
    obtain ⟨new, L, h0, h4, h3, h5⟩ := traverse_logged hS _ _ _ _ _ _ _ _ h2
    simp at h0; subst h0
    exact ⟨start, log, L, h1, rfl, h3, h4, h5⟩

/-- C35: the log does not change the outcome of any generation. -/
theorem C35_log_transparent {σ : Type} {g : Grammar} {S : Strategy σ} {f : Callback σ} {fuel : Nat} {st : σ} {log} :
    unlog (g.generateWith (logStrategy S) (logCallback f) fuel (st, log)) = g.generateWith S f fuel st :=
  generate_unlog fuel (st, log)

/-- C35 for a callback without state, in a grammar without undefined nonterminals: the sentence has a derivation tree all of whose
nonterminal nodes, with the text below them, satisfy the callback. -/
theorem C35_tree_accepted {σ : Type} {g : Grammar} (hd : FullyDeclared g) {S : Strategy σ} {f : Str → Str → Bool} (hS : Faithful S)
    {fuel : Nat} {st st' : σ} {s : Str} (h : g.generateWith S (fun st n t => (f n t, st)) fuel st = .done (.ok s) st') :
    ∃ start t, g.startingTerm = some (.nonterminal start) ∧ IsParse g (.nonterminal start) s t ∧ f start s = true ∧
      ∀ x ∈ expansions t.rhs, f x.1 x.2 = true := by
  obtain ⟨start, log, L, h1, _, h3, h4, h5⟩ := C35_expansions_accepted hS h
  obtain ⟨ns, k1, k2, k3⟩ := expansion_forest hd h3 (by
    intro n hn
    simp at hn; subst hn
    unfold Grammar.startingTerm at h1
    cases hp : g.productions with
    | nil => simp [hp] at h1
    | cons p ps => simp [hp] at h1; exact ⟨p, by simp [hp], h1⟩)
  have hall : ∀ x ∈ L, f x.1 x.2 = true := by
    intro x hx
    obtain ⟨_, _, hx'⟩ := h5 x (h4.mem hx)
    simp only [Prod.mk.injEq] at hx'
    exact hx'.1
  cases k1 with
  | nonterminal ha hf hn =>
    cases hn
    simp only [Spec.yield, nodeYield, List.append_nil] at k2
    simp only [expansions, nodeExpansions, List.append_nil, k2] at k3
    refine ⟨start, ⟨_, _⟩, h1, ⟨rfl, ⟨_, ha, hf⟩, k2⟩, hall (start, s) (by rw [← k3]; simp), fun x hx => hall x ?_⟩
    rw [← k3]; simp [hx]

/-- A callback that rejects every expansion of `<t>` to "y": the first random choice is repeated. -/
example : gExp.generateWith (RandomWalk scriptRng) (fun st n t => (!(n = ['t'] && t = ['y']), st)) 20 [1, 1, 0] =
    .done (.ok ['é']) [] := rfl

/-! ## C36: errors -/

/-- C36: if the grammar has productions and the starting term derives nothing, generation fails without consulting the strategy or the
callback (the state is unchanged). -/
theorem C36_nonterminating {σ : Type} {g : Grammar} (S : Strategy σ) (f : Callback σ) (fuel : Nat) (st : σ) {start : Term}
    (hs : g.startingTerm = some start) (h : ¬ ∃ w, Derives g start w) :
    g.generateWith S f fuel st = .done (.error (.generateError "Can't generate, first rule in grammar doesn't lead to a terminal state".toList)) st := by
  obtain ⟨b, h1, h2⟩ := C33_terminates_iff g
  have hne : g.productions ≠ [] := by intro h'; simp [Grammar.startingTerm, h'] at hs
  have : b = false := by
    cases b with
    | false => rfl
    | true =>
      rcases h2.1 rfl with h' | ⟨S, w, h3, h4⟩
      · exact absurd h' hne
      · rw [hs] at h3; injection h3 with h3; subst h3; exact absurd ⟨w, h4⟩ h
  subst this
  unfold Grammar.generateWith
  rw [h1]
  rfl

/-- C36: the empty grammar. -/
theorem C36_empty {σ : Type} {g : Grammar} (S : Strategy σ) (f : Callback σ) (fuel : Nat) (st : σ) (h : g.productions = []) :
    g.generateWith S f fuel st = .done (.error (.generateError "Failed to get first production!".toList)) st := by
  obtain ⟨b, h1, h2⟩ := C33_terminates_iff g
  unfold Grammar.generateWith
  rw [h1, h2.2 (.inl h), h]
  rfl

/-- C36: a terminal as first left-hand side. -/
theorem C36_terminal_lhs {σ : Type} {g : Grammar} (S : Strategy σ) (f : Callback σ) (fuel : Nat) (st : σ) {p ps s}
    (hp : g.productions = p :: ps) (hl : p.lhs = .terminal s) (h : ∃ w, Derives g (.terminal s) w) :
    g.generateWith S f fuel st = .done (.error (.generateError ("Terminal type cannot define a production in '".toList ++ p.display ++ "'!".toList))) st := by
  have key : g.generateWith S f fuel st = .done (.error (.generateError (msgTerminalLhs p))) st := by
    obtain ⟨b, h1, h2⟩ := C33_terminates_iff g
    obtain ⟨w, hw⟩ := h
    unfold Grammar.generateWith
    rw [h1, h2.2 (.inr ⟨.terminal s, w, by simp [Grammar.startingTerm, hp, hl], hw⟩), hp]
    simp only [hl]
  exact key

/-- C36: in all other cases an error comes from a production without a choosable alternative, the first one of a nonterminal
reachable from the start, or from the strategy returning `None` for such a production. -/
theorem C36_other_errors {σ : Type} {g : Grammar} {S : Strategy σ} {f : Callback σ} (hS : Faithful S) {fuel : Nat} {st st' : σ}
    {start : Str} (hs : g.startingTerm = some (.nonterminal start)) (hprod : ∃ w, Derives g (.nonterminal start) w) {e : Error}
    (h : g.generateWith S f fuel st = .done (.error e) st') :
    ∃ m p, Relation.ReflTransGen (Refers g) start m ∧ IsFirst g m p ∧
      ((e = .generateError "Production has no choosable alternative!".toList ∧ NoChoice p) ∨
       (e = .generateError "Couldn't select random Expression!".toList ∧ p.rhs ≠ [] ∧ ∃ st1 a d st2, S.choose st1 a p d = (.none, st2))) := by
  obtain ⟨b, h1, h2⟩ := C33_terminates_iff g
  obtain ⟨w, hw⟩ := hprod
  have hb := h2.2 (.inr ⟨_, w, hs, hw⟩)
  subst hb
  unfold Grammar.generateWith at h
  rw [h1] at h
  unfold Grammar.startingTerm at hs
  cases hp : g.productions with
  | nil => simp [hp] at hs
  | cons p ps =>
    simp [hp] at hs
    simp only [hp, hs] at h
    exact traverse_error hS _ _ _ _ _ _ h

/-- C36: no panic with a strategy that does not panic on productions with alternatives. -/
theorem C36_no_panic {σ : Type} {g : Grammar} {S : Strategy σ} (f : Callback σ)
    (hS : ∀ st a p d, p ∈ g.productions → p.rhs ≠ [] → (S.choose st a p d).1 ≠ .panic) (fuel : Nat) (st : σ) :
    g.generateWith S f fuel st ≠ .panic := by
  unfold Grammar.generateWith
  split
  · simp
  · simp
  · split
    · split
      · exact traverse_panic hS _ _ _ _
      · simp
    · simp

example : gBare.generateWith (RandomWalk scriptRng) (fun st _ _ => (true, st)) 5 [] =
    .done (.error (.generateError "Production has no choosable alternative!".toList)) [] ∧ NoChoice gBare.productions[1] := ⟨rfl, .inr rfl⟩
example : gLoop.generateWith (RandomWalk scriptRng) (fun st _ _ => (true, st)) 5 [3] =
    .done (.error (.generateError "Can't generate, first rule in grammar doesn't lead to a terminal state".toList)) [3] := rfl

/-! ## C37: built-in strategies choose an alternative -/

/-- C37: `RandomWalk`, `DepthBounded` and `CoverageGuided` return an alternative of every production that has one, in every state. -/
theorem C37_choose {ρ Seed : Type} (R : Rng ρ Seed) (m : Nat) :
    AlwaysChooses (RandomWalk R) ∧ AlwaysChooses (DepthBounded R m) ∧ AlwaysChooses (CoverageGuided R) :=
  ⟨randomWalk_chooses, depthBounded_chooses m, coverage_chooses⟩

/-- C37: so does `Weighted`, when overflow checks are off, or the sum of the weights fits into a `u32`. -/
theorem C37_weighted {ρ Seed : Type} (R : Rng ρ Seed) (checked : Bool) (x y : Nat) (rng : ρ) (addr : Nat) (p : Production) (d : Nat)
    (hne : p.rhs ≠ []) (hs : checked = true → (p.rhs.map fun e => if p.lhs ∈ e.terms then x else y).sum < 2 ^ 32) :
    ∃ e ∈ p.rhs, ((Weighted R checked x y).choose rng addr p d).1 = .expr e :=
  weighted_chooses_of rng addr p d hne (by
    rw [fillWeights_eq]; exact hs)

/-- C37: all of them only ever return alternatives of the given production. -/
theorem C37_faithful {ρ Seed : Type} (R : Rng ρ Seed) (m : Nat) (c : Bool) (x y : Nat) :
    Faithful (RandomWalk R) ∧ Faithful (DepthBounded R m) ∧ Faithful (CoverageGuided R) ∧ Faithful (Weighted R c x y) :=
  ⟨randomWalk_faithful, depthBounded_faithful m, coverage_faithful, weighted_faithful c x y⟩

/-- C36, C37: generation with these three never panics, and an error other than the ones before the traversal is about a production
without a choosable alternative. -/
theorem C36_no_panic_builtin {ρ Seed : Type} (R : Rng ρ Seed) (m : Nat) (g : Grammar) (fuel : Nat) :
    (∀ f st, g.generateWith (RandomWalk R) f fuel st ≠ .panic) ∧
    (∀ f st, g.generateWith (DepthBounded R m) f fuel st ≠ .panic) ∧
    (∀ f st, g.generateWith (CoverageGuided R) f fuel st ≠ .panic) ∧
    (∀ x y f st, g.generateWith (Weighted R false x y) f fuel st ≠ .panic) :=
  ⟨fun f st => C36_no_panic f (fun st a p d _ => AlwaysChooses.neverPanics randomWalk_chooses st a p d) fuel st,
   fun f st => C36_no_panic f (fun st a p d _ => AlwaysChooses.neverPanics (depthBounded_chooses m) st a p d) fuel st,
   fun f st => C36_no_panic f (fun st a p d _ => AlwaysChooses.neverPanics coverage_chooses st a p d) fuel st,
   fun x y f st => C36_no_panic f (fun st a p d _ hne => by
     obtain ⟨e, _, h⟩ := weighted_chooses_of (checked := false) (a := x) (b := y) st a p d hne (by simp); rw [h]; simp) fuel st⟩

/-- C36: with overflow checks `Weighted` does not panic either if the weights of each production add up to less than 2^32 (compare
`C40_overflow_panics`). -/
theorem C36_no_panic_weighted {ρ Seed : Type} (R : Rng ρ Seed) (g : Grammar) (x y : Nat)
    (hfit : ∀ p ∈ g.productions, (p.rhs.map fun e => if p.lhs ∈ e.terms then x else y).sum < 2 ^ 32) (f : Callback ρ) (fuel : Nat) (st : ρ) :
    g.generateWith (Weighted R true x y) f fuel st ≠ .panic :=
  C36_no_panic f (fun st a p d hp hne => by
    obtain ⟨e, _, h⟩ := weighted_chooses_of (checked := true) (a := x) (b := y) st a p d hne (fun _ => by rw [fillWeights_eq]; exact hfit p hp)
    rw [h]; simp) fuel st

/-- Its hypothesis holds for the default weights 100 and 1 of a production with fewer than 42 million alternatives. -/
example : ∀ p ∈ gLoop.productions, (p.rhs.map fun e => if p.lhs ∈ e.terms then 100 else 1).sum < 2 ^ 32 := by decide

/-- A production without alternatives makes them panic; generation checks for it before. -/
theorem C37_empty_panics {ρ Seed : Type} (R : Rng ρ Seed) (m : Nat) (p : Production) (h : p.rhs = []) (st : ρ) (a d : Nat) :
    ((RandomWalk R).choose st a p d).1 = .panic ∧ ((DepthBounded R m).choose st a p d).1 = .panic ∧
    (∀ seen, ((CoverageGuided R).choose (seen, st) a p d).1 = .panic) ∧
    ∀ c x y, ((Weighted R c x y).choose st a p d).1 = .panic := by
  refine ⟨?_, ?_, fun seen => ?_, fun c x y => ?_⟩
  · simp [RandomWalk, randomIndex, h]
  · simp [DepthBounded, pickFrom, randomIndex, h, indicesWhere]
  · simp [CoverageGuided, pickFrom, randomIndex, h]
  · simp [Weighted, weightedRandomIndex, sumU32, fillWeights, randomIndex, h]

/-! ## C38: DepthBounded -/

/-- C38: if every production that is the first one of its nonterminal has an alternative of terminals only, generation ends for
every random source, and the nesting of expansions is at most `max_depth + 1` (depths 0 to `max_depth`). -/
theorem C38_terminates_partial {ρ Seed : Type} (R : Rng ρ Seed) (m : Nat) {g : Grammar}
    (h : ∀ n p, IsFirst g n p → ∃ e ∈ p.rhs, AllTerminal e) (st : ρ) :
    ∃ r st', g.generateSeededWithStrategy (DepthBounded R m) (m + 1) st = .done r st' := by
  have hnp := (C36_no_panic_builtin R m g (m + 1)).2.1 (acceptAll ρ) st
  have hnf : g.generateWith (DepthBounded R m) (acceptAll ρ) (m + 1) st ≠ .fuel := by
    have deep : ∀ id d, m ≤ d → ∀ st, traverse g (DepthBounded R m) (acceptAll ρ) 1 id d st ≠ .fuel := by
      intro id d hd st
      refine traverse_noFuel_step fun a p e st' hf hc nt hnt => ?_
      obtain ⟨e0, he0, ha0⟩ := h id p (isFirst_of_find hf)
      obtain ⟨e', _, h3, h4⟩ := depthBounded_spec (R := R) m st a p d (List.ne_nil_of_mem he0)
      have := choose_expr hc h3
      subst this
      obtain ⟨s, hs⟩ := h4 hd ⟨e0, he0, ha0⟩ _ hnt
      cases hs
    obtain ⟨b, h1, _⟩ := C33_terminates_iff g
    unfold Grammar.generateWith
    rw [h1]
    cases b with
    | false => simp
    | true =>
      simp only
      split
      · split
        · rw [Nat.add_comm]; exact depthBounded_shallow deep m _ 0 (by omega) st
        · simp
      · simp
  cases hr : g.generateWith (DepthBounded R m) (acceptAll ρ) (m + 1) st with
  | fuel => exact absurd hr hnf
  | panic => exact absurd hr hnp
  | done r st' => exact ⟨r, st', hr⟩

/-- C38, a weaker condition: it is enough that there is no infinite chain of nonterminals in which each one has no alternative of
terminals only and refers to the next.  The bound does not depend on the state of the random source. -/
theorem C38_terminates_wf_partial {ρ Seed : Type} (R : Rng ρ Seed) (m : Nat) {g : Grammar}
    (hwf : WellFounded fun y x => Stuck g x y) :
    ∃ fuel, ∀ st, ∃ r st', g.generateSeededWithStrategy (DepthBounded R m) fuel st = .done r st' := by
  obtain ⟨N, hN⟩ := depthBounded_uniform (R := R) g m hwf
  refine ⟨N + m, fun st => ?_⟩
  have hnp := (C36_no_panic_builtin R m g (N + m)).2.1 (acceptAll ρ) st
  have hnf : g.generateWith (DepthBounded R m) (acceptAll ρ) (N + m) st ≠ .fuel := by
    obtain ⟨b, h1, _⟩ := C33_terminates_iff g
    unfold Grammar.generateWith
    rw [h1]
    cases b with
    | false => simp
    | true =>
      simp only
      split
      · split
        · exact depthBounded_shallow hN m _ 0 (by omega) st
        · simp
      · simp
  cases hr : g.generateWith (DepthBounded R m) (acceptAll ρ) (N + m) st with
  | fuel => exact absurd hr hnf
  | panic => exact absurd hr hnp
  | done r st' => exact ⟨r, st', hr⟩

/-- C38 fails in general: in `<s> ::= <s> <b> | <b>` the fallback picks the first alternative forever, for every `max_depth`, although
the grammar terminates. -/
theorem C38_witness (m : Nat) : gStuck.terminates = some true ∧
    ∀ fuel st, gStuck.generateSeededWithStrategy (DepthBounded scriptRng m) fuel (st := List.replicate st 0) = .fuel := by
  refine ⟨by decide, fun fuel k => ?_⟩
  have key : ∀ fuel d k, traverse gStuck (DepthBounded scriptRng m) (acceptAll (List Nat)) fuel ['s'] d (List.replicate k 0) = .fuel := by
    intro fuel
    induction fuel with
    | zero => intros; rfl
    | succ n ih =>
      intro d k
      have hchoose : (DepthBounded scriptRng m).choose (List.replicate k 0) 0 gStuck.productions[0] d =
          (.expr ⟨[.nonterminal ['s'], .nonterminal ['b']]⟩, List.replicate (k - 1) 0) := by
        have hhead : ∀ n, (List.replicate k 0).head?.getD 0 % n = 0 := by cases k <;> simp [List.replicate_succ]
        have e2 : indicesWhere (fun _ e => expressionAllTerminals e) gStuck.productions[0].rhs 0 = [] := by decide
        have e3 : gStuck.productions[0].rhs.length = 2 := by decide
        by_cases hd : m ≤ d
        · simp only [DepthBounded, if_pos hd, e2, e3, pickFrom, randomIndex, scriptRng, List.headD_eq_head?_getD, hhead]
          simp [getExpression, gStuck]
        · simp only [DepthBounded, if_neg hd, e3, pickFrom, randomIndex, scriptRng, List.headD_eq_head?_getD, hhead]
          simp [getExpression, gStuck, List.range, List.range.loop]
      rw [traverse_choose (a := 0) (p := gStuck.productions[0]) rfl (by decide), hchoose]
      simp only [evalTerms, ih]
  have := key fuel 0 k
  unfold Grammar.generateSeededWithStrategy Grammar.generateWith
  rw [show gStuck.terminates = some true by decide]
  exact this

example : ∀ n p, IsFirst gAmb n p → ∃ e ∈ p.rhs, AllTerminal e := by
  intro n p h
  have hp := isFirst_mem h
  simp [gAmb] at hp
  subst hp
  exact ⟨⟨[.terminal ['x']]⟩, by simp, by intro t ht; simp at ht; exact ⟨_, ht⟩⟩

/-! ## C39: CoverageGuided -/

/-- C39: the choice is recorded under its index, and as long as some alternative was not recorded before for this production, the
chosen one was not. -/
theorem C39_prefers_new {ρ Seed : Type} (R : Rng ρ Seed) (seen : List (Nat × Nat)) (rng : ρ) (a : Nat) (p : Production) (d : Nat)
    (hne : p.rhs ≠ []) :
    ∃ i rng', ∃ h : i < p.rhs.length,
      (CoverageGuided R).choose (seen, rng) a p d = (.expr p.rhs[i], ((a, i) :: seen, rng')) ∧
      ((∃ j < p.rhs.length, (a, j) ∉ seen) → (a, i) ∉ seen) :=
  coverage_spec seen rng a p d hne

/-- C39: start with a new strategy value and call it any number of times, for any productions in any order (each production with its
own address).  Once a production with `n` alternatives was asked for `n` times, each of its alternatives was among the answers. -/
theorem C39_covers_all {ρ Seed : Type} {R : Rng ρ Seed} {cs rs st} (h : CoverageRun R cs rs st) {a : Nat} {p : Production}
    (hc : ∀ c ∈ cs, c.2.1.rhs ≠ [] ∧ (c.1 = a → c.2.1 = p)) (hn : p.rhs.length ≤ cs.countP fun c => c.1 == a) :
    ∀ e ∈ p.rhs, ∃ k : Nat, ∃ c, cs[k]? = some c ∧ c.1 = a ∧ rs[k]? = some (.expr e) := by
  intro e he
  obtain ⟨h1, h2, _⟩ := coverageRun_inv (List.ne_nil_of_mem he) h hc
  obtain ⟨i, hi, rfl⟩ := List.mem_iff_getElem.1 he
  obtain ⟨k, c, e', k1, k2, k3, k4⟩ := h2 i (seenCount_full (by omega) i hi)
  rw [List.getElem?_eq_getElem hi] at k4
  injection k4 with k4
  rw [k4]
  exact ⟨k, c, k1, k2, k3⟩

/-- C39: and each new answer, until then, has an index that was not answered before. With distinct alternatives: answers to the
first `n` calls for a production are pairwise different. -/
theorem C39_new_answer {ρ Seed : Type} {R : Rng ρ Seed} {cs rs st} (h : CoverageRun R cs rs st) {a : Nat} {p : Production} {d : Nat}
    (hc : ∀ c ∈ cs, c.2.1.rhs ≠ [] ∧ (c.1 = a → c.2.1 = p)) (hd : p.rhs.Nodup)
    (hsome : ∃ e ∈ p.rhs, ∀ k : Nat, ∀ c, cs[k]? = some c → c.1 = a → rs[k]? ≠ some (.expr e)) :
    ∃ e ∈ p.rhs, ((CoverageGuided R).choose st a p d).1 = .expr e ∧
      ∀ k : Nat, ∀ c, cs[k]? = some c → c.1 = a → rs[k]? ≠ some (.expr e) := by
  obtain ⟨e0, he0, hnot⟩ := hsome
  have hne := List.ne_nil_of_mem he0
  obtain ⟨h1, h2, h3⟩ := coverageRun_inv hne h hc
  have h4 := coverageRun_seen hne h hc
  obtain ⟨seen, rng⟩ := st
  obtain ⟨i, rng', hi, h5, h6⟩ := coverage_spec (R := R) seen rng a p d hne
  refine ⟨p.rhs[i], List.getElem_mem _, by rw [h5], fun k c hk hca hr => ?_⟩
  obtain ⟨j0, hj0, rfl⟩ := List.mem_iff_getElem.1 he0
  have hnew := h6 ⟨j0, hj0, fun hm => by
    obtain ⟨k, c, e, k1, k2, k3, k4⟩ := h2 j0 hm
    rw [List.getElem?_eq_getElem hj0] at k4
    injection k4 with k4
    exact hnot k c k1 k2 (by rw [k4]; exact k3)⟩
  obtain ⟨j, hj, hjs⟩ := h4 k c _ hk hca hr
  have : j = i := by
    obtain ⟨hj', hjj⟩ := List.getElem?_eq_some_iff.1 hj
    exact (hd.getElem_inj_iff).1 hjj
  subst this
  exact hnew hjs

/-! ## C40: Weighted -/

/-- C40: if the sum of the weights is positive and fits into a `u32`, the chosen index is a function of one draw below the sum, and
the number of draws that select alternative `i` is exactly its weight. -/
theorem C40_proportional (checked : Bool) (x y : Nat) (p : Production) (ws : List Nat)
    (hws : ws = p.rhs.map fun e => if p.lhs ∈ e.terms then x else y) (h0 : ws.sum ≠ 0) (hfit : ws.sum < 2 ^ 32) :
    ∃ sel : Nat → Nat,
      (∀ (ρ Seed : Type) (R : Rng ρ Seed) (rng : ρ) (addr d : Nat), ∃ e,
        ((Weighted R checked x y).choose rng addr p d).1 = .expr e ∧ p.rhs[sel (R.u32 rng ws.sum).1]? = some e) ∧
      ∀ i (h : i < ws.length), ((List.range ws.sum).filter fun r => sel r == i).length = ws[i] := by
  have hw : fillWeights x y p = ws := by
    rw [hws, fillWeights_eq]
  refine ⟨fun r => (selectLoop ws r 0).getD 0, ?_, ?_⟩
  · intro ρ Seed R rng addr d
    obtain ⟨i, hi, h1, h2⟩ := weighted_spec (R := R) (checked := checked) (a := x) (b := y) rng addr p d (t := ws.sum)
      (by rw [hw, sumU32, if_pos hfit]) h0
    rw [hw] at h1
    exact ⟨p.rhs[i], by rw [h2], by simp [h1, hi]⟩
  · intro i h
    rw [← selectLoop_count ws i h]
    congr 1
    apply List.filter_congr
    intro r hr
    obtain ⟨j, hj, _⟩ := selectLoop_some ws r 0 (List.mem_range.1 hr)
    simp [hj]

/-- C40: an alternative of weight 0 is never selected by a draw. -/
theorem C40_zero_never {ρ Seed : Type} (R : Rng ρ Seed) (checked : Bool) (x y : Nat) (rng : ρ) (addr d : Nat) (p : Production)
    (hfit : (p.rhs.map fun e => if p.lhs ∈ e.terms then x else y).sum < 2 ^ 32)
    (h0 : (p.rhs.map fun e => if p.lhs ∈ e.terms then x else y).sum ≠ 0) {e : Expression}
    (he : (if p.lhs ∈ e.terms then x else y) = 0) : ((Weighted R checked x y).choose rng addr p d).1 ≠ .expr e := by
  intro hc
  obtain ⟨sel, h1, h2⟩ := C40_proportional checked x y p _ rfl h0 hfit
  obtain ⟨e', h3, h4⟩ := h1 ρ Seed R rng addr d
  rw [hc] at h3; injection h3 with h3; subst h3
  obtain ⟨hi, h5⟩ := List.getElem?_eq_some_iff.1 h4
  have h6 := h2 _ (by simpa using hi)
  rw [List.getElem_map, h5, he, List.length_eq_zero_iff, List.filter_eq_nil_iff] at h6
  exact h6 _ (List.mem_range.2 (R.u32_lt rng _ (by omega))) (by simp)

/-- C40: all weights zero: the choice is uniform over the alternatives. -/
theorem C40_all_zero {ρ Seed : Type} (R : Rng ρ Seed) (checked : Bool) (x y : Nat) (rng : ρ) (addr d : Nat) (p : Production)
    (hne : p.rhs ≠ []) (h0 : ∀ e ∈ p.rhs, (if p.lhs ∈ e.terms then x else y) = 0) :
    ∃ e, ((Weighted R checked x y).choose rng addr p d).1 = .expr e ∧ p.rhs[(R.index rng p.rhs.length).1]? = some e := by
  have hw : (fillWeights x y p).sum = 0 := by
    rw [fillWeights_eq]
    apply List.sum_eq_zero
    intro w hw
    obtain ⟨e, he, rfl⟩ := List.mem_map.1 hw
    exact h0 e he
  have hlt := R.index_lt rng p.rhs.length (List.length_pos_iff.2 hne)
  refine ⟨p.rhs[(R.index rng p.rhs.length).1], ?_, by simp⟩
  have hs : sumU32 checked (fillWeights x y p) = some 0 := by
    unfold sumU32; rw [hw]; rfl
  have hz : p.rhs.length ≠ 0 := by simpa using hne
  simp only [Weighted, weightedRandomIndex, hs, randomIndex, if_neg hz, if_true]
  exact getExpression_lt hlt

/-- C40: with overflow checks, a sum of the weights that does not fit into a `u32` is a panic. -/
theorem C40_overflow_panics {ρ Seed : Type} (R : Rng ρ Seed) (x y : Nat) (rng : ρ) (addr d : Nat) (p : Production)
    (h : 2 ^ 32 ≤ (p.rhs.map fun e => if p.lhs ∈ e.terms then x else y).sum) : ((Weighted R true x y).choose rng addr p d).1 = .panic := by
  rw [← fillWeights_eq] at h
  have : sumU32 true (fillWeights x y p) = none := by
    unfold sumU32; rw [if_neg (by omega)]; rfl
  simp [Weighted, weightedRandomIndex, this]

/-- C40: without overflow checks the sum wraps: the draw `r` is below the remainder of the sum modulo 2^32, and selects the alternative in whose part
of the (true) sum it lies, so the alternatives at the end are selected too seldom or never; if the remainder is 0 the choice is uniform, whatever
the weights. -/
theorem C40_wraps_exact {ρ Seed : Type} (R : Rng ρ Seed) (x y : Nat) (rng : ρ) (addr d : Nat) (p : Production) (ws : List Nat)
    (hws : ws = p.rhs.map fun e => if p.lhs ∈ e.terms then x else y) :
    (ws.sum % 2 ^ 32 ≠ 0 → ∃ i, ∃ h : i < p.rhs.length, ((Weighted R false x y).choose rng addr p d).1 = .expr p.rhs[i] ∧
      (ws.take i).sum ≤ (R.u32 rng (ws.sum % 2 ^ 32)).1 ∧ (R.u32 rng (ws.sum % 2 ^ 32)).1 < (ws.take (i + 1)).sum) ∧
    (ws.sum % 2 ^ 32 = 0 → p.rhs ≠ [] → ∃ e, ((Weighted R false x y).choose rng addr p d).1 = .expr e ∧
      p.rhs[(R.index rng p.rhs.length).1]? = some e) := by
  have hw : fillWeights x y p = ws := by
    rw [hws, fillWeights_eq]
  have hs : sumU32 false (fillWeights x y p) = some (ws.sum % 2 ^ 32) := by
    unfold sumU32
    rw [hw]
    split
    · rename_i h
      rw [Nat.mod_eq_of_lt h]
    · rfl
  constructor
  · intro h0
    obtain ⟨i, hi, h1, h2⟩ := weighted_spec (R := R) (checked := false) (a := x) (b := y) rng addr p d hs h0
    rw [hw, selectLoop_eq] at h1
    exact ⟨i, hi, by rw [h2], h1.2⟩
  · intro h0 hne
    have hlt := R.index_lt rng p.rhs.length (List.length_pos_iff.2 hne)
    refine ⟨p.rhs[(R.index rng p.rhs.length).1], ?_, by simp⟩
    have hz : p.rhs.length ≠ 0 := by simpa using hne
    simp only [Weighted, weightedRandomIndex, hs, randomIndex, if_neg hz, h0, if_true]
    exact getExpression_lt hlt

/-- C40: without overflow checks the sum wraps.  With the weight 2^31 three times the sum is 2^31 and only the first
alternative is ever selected. -/
theorem C40_overflow_wraps {ρ Seed : Type} (R : Rng ρ Seed) (rng : ρ) (addr d : Nat) (lhs : Term) (e1 e2 e3 : Expression)
    (h1 : lhs ∉ e1.terms) (h2 : lhs ∉ e2.terms) (h3 : lhs ∉ e3.terms) :
    ((Weighted R false 1 (2 ^ 31)).choose rng addr ⟨lhs, [e1, e2, e3]⟩ d).1 = .expr e1 := by
  have hc : ∀ e : Expression, lhs ∉ e.terms → expressionContains e lhs = false := by
    intro e he; unfold expressionContains; simp; intro t ht heq; exact absurd (heq ▸ ht) he
  have hw : fillWeights 1 (2 ^ 31) ⟨lhs, [e1, e2, e3]⟩ = [2 ^ 31, 2 ^ 31, 2 ^ 31] := by
    simp [fillWeights, hc _ h1, hc _ h2, hc _ h3]
  have hs : sumU32 false [2 ^ 31, 2 ^ 31, 2 ^ 31] = some (2 ^ 31) := by decide
  have hlt := R.u32_lt rng (2 ^ 31) (by decide)
  simp only [Weighted, weightedRandomIndex, hw, hs]
  rw [if_neg (by decide)]
  simp only [selectLoop, hlt, if_true]
  rfl

example : ([1, 3].sum ≠ 0 ∧ [1, 3].sum < 2 ^ 32) ∧
    (gExp.productions[0].rhs.map fun e => if gExp.productions[0].lhs ∈ e.terms then 1 else 3) = [1, 3] := by decide

/-! ## C41, C51: everything derivable can be generated -/

/-- C51: exactly which sentences can be generated, in any grammar: if the starting nonterminal is productive, the sentences
returned by `generate()` for some random source, and those returned by any of the generation functions with any strategy and callback,
are those with an expansion of the starting nonterminal through choosable alternatives of first productions. -/
theorem C51_generated_iff {g : Grammar} {start : Str} (hs : g.startingTerm = some (.nonterminal start))
    (hp : ∃ w, Derives g (.nonterminal start) w) (s : Str) :
    ((∃ seed fuel st, g.generate scriptRng fuel seed = .done (.ok s) st) ↔ ∃ L, Expansion g [.nonterminal start] s L) ∧
    (Generated g s ↔ ∃ L, Expansion g [.nonterminal start] s L) := by
  have h1 : Generated g s → ∃ L, Expansion g [.nonterminal start] s L := by
    intro h
    obtain ⟨start', L, h1, h2⟩ := generated_expansion h
    rw [hs] at h1; injection h1 with h1; injection h1 with h1; subst h1
    exact ⟨L, h2⟩
  refine ⟨⟨fun ⟨seed, fuel, st, h⟩ => h1 (.plain h), fun ⟨L, h⟩ => generate_script hs hp h⟩, h1, fun ⟨L, h⟩ => ?_⟩
  obtain ⟨seed, fuel, st, h⟩ := generate_script hs hp h
  exact .plain h

/-- C51: if every left-hand side has one production only and no production has a single alternative without terms, every sentence of
the language is returned by `generate()` for some random source. -/
theorem C51_every_sentence_generated {g : Grammar} (hU : (g.productions.map (·.lhs)).Nodup)
    (hE : ∀ p ∈ g.productions, p.rhs ≠ [⟨[]⟩]) {start : Str} (hs : g.startingTerm = some (.nonterminal start)) {s : Str}
    (h : Derives g (.nonterminal start) s) : ∃ seed fuel st, g.generate scriptRng fuel seed = .done (.ok s) st := by
  obtain ⟨L, hL⟩ := derives_expansion hU hE h
  exact generate_script hs ⟨s, h⟩ hL

/-- C41: under the same conditions, if `terminates()` is true then some random source makes generation succeed. -/
theorem C41_can_generate_partial {g : Grammar} (hU : (g.productions.map (·.lhs)).Nodup)
    (hE : ∀ p ∈ g.productions, p.rhs ≠ [⟨[]⟩]) {start : Str} (hs : g.startingTerm = some (.nonterminal start))
    (h : g.terminates = some true) : ∃ seed fuel s st, g.generate scriptRng fuel seed = .done (.ok s) st := by
  obtain ⟨b, h1, h2⟩ := C33_terminates_iff g
  rw [h] at h1; injection h1 with h1
  rcases h2.1 h1.symm with h3 | ⟨S, w, h3, h4⟩
  · simp [Grammar.startingTerm, h3] at hs
  · rw [hs] at h3; injection h3 with h3; subst h3
    obtain ⟨seed, fuel, st, h5⟩ := C51_every_sentence_generated hU hE hs h4
    exact ⟨seed, fuel, w, st, h5⟩

/-- C41 fails when a nonterminal has several productions: `terminates()` considers all of them, generation only the first.  Generation
does not end, whatever a faithful strategy and the callback do. -/
theorem C41_several_productions_witness : gTwice.terminates = some true ∧
    ∀ (σ : Type) (S : Strategy σ) (f : Callback σ) (fuel : Nat) (st st' : σ) (s : Str), Faithful S →
      gTwice.generateWith S f fuel st ≠ .done (.ok s) st' := by
  refine ⟨by decide, fun σ S f fuel st st' s hS h => ?_⟩
  obtain ⟨start, L, h1, h2⟩ := generated_expansion (.callbackWithStrategy hS h)
  have hst : start = ['a'] := by simp [gTwice, Grammar.startingTerm] at h1; exact h1.symm
  subst hst
  have hfirst : ∀ p, IsFirst gTwice ['a'] p → p.rhs = [⟨[.nonterminal ['a']]⟩] := by
    intro p hp
    rw [isFirst_unique hp (q := gTwice.productions[0]) ⟨[], [gTwice.productions[1]], rfl, rfl, by simp⟩]
    rfl
  have key : ∀ {ts w L}, Expansion gTwice ts w L → Term.nonterminal ['a'] ∉ ts := by
    intro ts w L hx
    induction hx with
    | nil => simp
    | terminal _ ih => simpa using ih
    | @undeclared n w ts L hd _ ih =>
      intro hm
      rcases List.mem_cons.1 hm with hm | hm
      · injection hm with hm; subst hm
        exact hd ⟨gTwice.productions[0], by simp [gTwice], rfl⟩
      · exact ih hm
    | @nonterminal n v w p e ts L M hp _ he _ _ ih1 ih2 =>
      intro hm
      rcases List.mem_cons.1 hm with hm | hm
      · injection hm with hm; subst hm
        rw [hfirst p hp] at he
        simp at he
        exact ih1 (by rw [he]; simp)
      · exact ih2 hm
  exact key h2 (by simp)

/-- C41 fails for a production with a single alternative without terms: it derives the empty string, but generation reports an error,
whatever the strategy does. -/
theorem C41_bare_alternative_witness : gBare.terminates = some true ∧ Derives gBare (.nonterminal ['a']) ['x'] ∧
    ∀ (σ : Type) (S : Strategy σ) (f : Callback σ) (fuel : Nat) (st st' : σ) (s : Str), Faithful S →
      gBare.generateWith S f fuel st ≠ .done (.ok s) st' := by
  refine ⟨by decide, ⟨⟨.nonterminal ['a'], [.nonterminal (.nonterminal ['b']) [], .terminal ['x']]⟩, rfl,
    ⟨_, ⟨gBare.productions[0], by simp [gBare], rfl, by simp [gBare]⟩,
      .nonterminal (e := ⟨[]⟩) ⟨gBare.productions[1], by simp [gBare], rfl, by simp [gBare]⟩ .nil (.terminal .nil)⟩, rfl⟩, ?_⟩
  intro σ S f fuel st st' s hS h
  obtain ⟨start, h1, h2⟩ := generate_ok_start h
  have hst : start = ['a'] := by simp [gBare, Grammar.startingTerm] at h1; exact h1.symm
  subst hst
  have key : ∀ fuel d (st st' : σ) s, traverse gBare S f fuel ['a'] d st ≠ .done (.ok s) st' := by
    intro fuel
    induction fuel with
    | zero => intro d st st' s h; simp [traverse] at h
    | succ n ih =>
      intro d st st' s h
      rw [traverse_choose (a := 0) (p := gBare.productions[0]) rfl (by decide)] at h
      split at h
      · cases h
      · simp at h
      · rename_i e st1 hc
        have he := hS _ _ _ _ _ _ hc
        simp [gBare] at he
        subst he
        cases n with
        | zero => simp [evalTerms, traverse] at h
        | succ n =>
          simp only [evalTerms] at h
          rw [traverse_noChoice (a := 1) (p := gBare.productions[1]) rfl (by decide)] at h
          simp at h
  exact key _ _ _ _ _ h2

example : (gExp.productions.map (·.lhs)).Nodup ∧ (∀ p ∈ gExp.productions, p.rhs ≠ [⟨[]⟩]) ∧ gExp.terminates = some true := by decide

end Bnf.Props
