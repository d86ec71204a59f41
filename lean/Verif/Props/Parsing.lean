import Verif.Proofs.Opened

/-! # Properties C01–C13 and C50: parsing an input

`Opened g S input it` covers the four public ways to obtain an iterator (`GrammarParser::parse_input`,
`parse_input_starting_with` and the deprecated functions of `Grammar`). -/

set_option autoImplicit false

namespace Bnf.Props
open Bnf Spec

/-! ## Examples used to show that hypotheses can be met -/

/-- `<s> ::= <s> <s> | 'x' | ''`: ambiguous, left and right recursive, nullable. -/
def gAmb : Grammar := ⟨[⟨.nonterminal ['s'], [⟨[.nonterminal ['s'], .nonterminal ['s']]⟩, ⟨[.terminal ['x']]⟩,
  ⟨[.terminal []]⟩]⟩]⟩

/-- `<e> ::= <e> '+' <t> | <t>`, `<t> ::= 'é' | 'y'`. -/
def gExp : Grammar := ⟨[⟨.nonterminal ['e'], [⟨[.nonterminal ['e'], .terminal ['+'], .nonterminal ['t']]⟩,
  ⟨[.nonterminal ['t']]⟩]⟩, ⟨.nonterminal ['t'], [⟨[.terminal ['é']]⟩, ⟨[.terminal ['y']]⟩]⟩]⟩

/-- `<a> ::= 'x' | 'x'`. -/
def gDup : Grammar := ⟨[⟨.nonterminal ['a'], [⟨[.terminal ['x']]⟩, ⟨[.terminal ['x']]⟩]⟩]⟩

/-- `<a> ::= <a> | 'z'`. -/
def gCyc : Grammar := ⟨[⟨.nonterminal ['a'], [⟨[.nonterminal ['a']]⟩, ⟨[.terminal ['z']]⟩]⟩]⟩

def tyLeaf (c : Char) : ParseTreeNode := .nonterminal (.nonterminal ['t']) [.terminal [c]]

/-- The parse tree of "é+y" in `gExp`. -/
def tExp : ParseTree := ⟨.nonterminal ['e'],
  [.nonterminal (.nonterminal ['e']) [tyLeaf 'é'], .terminal ['+'], tyLeaf 'y']⟩

theorem opened_of {g S input} (h : g.productions ≠ []) : ∃ it, Opened g S input it := by
  cases hp : g.productions with
  | nil => exact absurd hp h
  | cons p ps =>
    obtain ⟨it, h1, _⟩ := new_inv (p := ⟨p.lhs, ParseGrammar.newUnchecked g⟩) (g := g) rfl input S
    exact ⟨it, .deprecatedStarting (by
      simp only [Grammar.parseInputStartingWithDeprecated, Grammar.newUnchecked, Grammar.startingTerm, hp]
      exact h1)⟩

example : ∃ it, Opened gExp (.nonterminal ['e']) ['é', '+', 'y'] it := opened_of (by simp [gExp])

/-! ## C01, C02: soundness -/

/-- C01: every tree the iterator returns, in any call, is a derivation tree of the grammar for the input, rooted in the
starting term. -/
theorem C01_soundness {g S input it ts it'} (ho : Opened g S input it) (hd : Draws it ts it') :
    ∀ t ∈ ts, IsParse g S input t :=
  draws_sound ho.inv.1 hd

/-- C02: the terminals of every returned tree, read from left to right, spell exactly the input. -/
theorem C02_trees_spell_input {g S input it ts it'} (ho : Opened g S input it) (hd : Draws it ts it') :
    ∀ t ∈ ts, yield t.rhs = input :=
  fun t ht => (draws_sound ho.inv.1 hd t ht).spells

example : ∃ it it', Opened gExp (.nonterminal ['e']) ['é', '+', 'y'] it ∧ Draws it [tExp] it' ∧
    yield tExp.rhs = ['é', '+', 'y'] :=
  ⟨_, _, .deprecatedStarting rfl, .cons ⟨100, rfl⟩ .nil, rfl⟩

/-! ## C03: completeness -/

/-- C03: whatever has been drawn so far, every derivation tree of the input is among the trees drawn so far or among those
drawn by finitely many further calls, all of which return. -/
theorem C03_completeness {g S input it ts it'} (ho : Opened g S input it) (hd : Draws it ts it') {t}
    (ht : IsParse g S input t) : ∃ more it'', Draws it' more it'' ∧ t ∈ ts ++ more :=
  draws_complete ho.inv.1 ho.inv.2 hd ht

/-- C03: in particular the first call returns a tree if the input has a derivation. -/
theorem C03_first_call_returns {g S input it} (ho : Opened g S input it) (h : Derives g S input) :
    ∃ t it', Next it (some t) it' ∧ IsParse g S input t := by
  obtain ⟨t, ht⟩ := h
  obtain ⟨more, it'', hd, hm⟩ := C03_completeness ho .nil ht
  cases hd with
  | nil => simp at hm
  | cons hn hd' => exact ⟨_, _, hn, C01_soundness ho (.cons hn .nil) _ (by simp)⟩

/-- Non-trivial case: `gAmb` has infinitely many derivation trees of "x", all are drawn eventually. -/
example : IsParse gAmb (.nonterminal ['s']) ['x'] ⟨.nonterminal ['s'],
    [.nonterminal (.nonterminal ['s']) [.terminal ['x']], .nonterminal (.nonterminal ['s']) [.terminal []]]⟩ := by
  have h1 : HasAlt gAmb (.nonterminal ['s']) ⟨[.nonterminal ['s'], .nonterminal ['s']]⟩ :=
    ⟨_, List.mem_cons_self, rfl, by simp⟩
  have h2 : HasAlt gAmb (.nonterminal ['s']) ⟨[.terminal ['x']]⟩ := ⟨_, List.mem_cons_self, rfl, by simp⟩
  have h3 : HasAlt gAmb (.nonterminal ['s']) ⟨[.terminal []]⟩ := ⟨_, List.mem_cons_self, rfl, by simp⟩
  exact ⟨rfl, ⟨_, h1, .nonterminal h2 (.terminal .nil) (.nonterminal h3 (.terminal .nil) .nil)⟩, rfl⟩

/-! ## C04: no duplicates -/

/-- C04: without repeated (left-hand side, alternative) pairs no tree is returned twice. -/
theorem C04_no_duplicates {g S input it ts it'}
    (hn : (g.productions.flatMap fun p => p.rhs.map fun e => (p.lhs, e)).Nodup)
    (ho : Opened g S input it) (hd : Draws it ts it') : ts.Nodup :=
  draws_nodup hn ho.inv.1 hd

/-- With a repeated alternative the same tree can be returned twice. -/
theorem C04_duplicates_witness : ∃ it it', Opened gDup (.nonterminal ['a']) ['x'] it ∧
    Draws it [⟨.nonterminal ['a'], [.terminal ['x']]⟩, ⟨.nonterminal ['a'], [.terminal ['x']]⟩] it' :=
  ⟨_, _, .deprecatedStarting rfl, .cons ⟨100, rfl⟩ (.cons ⟨100, rfl⟩ .nil)⟩

example : (gAmb.productions.flatMap fun p => p.rhs.map fun e => (p.lhs, e)).Nodup := by decide

/-! ## C05: exhausted iterators -/

/-- C05: when `next()` returns `None`, the trees returned before are exactly the derivation trees of the input. -/
theorem C05_exhausted_exact {g S input it ts it' it''} (ho : Opened g S input it) (hd : Draws it ts it')
    (hn : Next it' none it'') (t : ParseTree) : t ∈ ts ↔ IsParse g S input t := by
  refine ⟨C01_soundness ho hd t, fun ht => ?_⟩
  obtain ⟨more, it3, hd', hm⟩ := C03_completeness ho hd ht
  cases hd' with
  | nil => simpa using hm
  | cons hn' _ => exact absurd (hn'.det hn).1 (by simp)

/-- C05: `None` in the first call means that the input is not in the language. -/
theorem C05_none_first {g S input it it'} (ho : Opened g S input it) (hn : Next it none it') : ¬ Derives g S input := by
  rintro ⟨t, ht⟩
  have := (C05_exhausted_exact ho .nil hn t).mpr ht
  cases this

/-- C05: a tree in the first call means that it is. -/
theorem C05_some_first {g S input it it' t} (ho : Opened g S input it) (hn : Next it (some t) it') :
    Derives g S input := ⟨t, C01_soundness ho (.cons hn .nil) t (by simp)⟩

example : ∃ it it' it'', Opened gExp (.nonterminal ['e']) ['é', '+', 'y'] it ∧ Draws it [tExp] it' ∧ Next it' none it'' :=
  ⟨_, _, _, .deprecatedStarting rfl, .cons ⟨100, rfl⟩ .nil, ⟨100, rfl⟩⟩
example : ∃ it it', Opened gExp (.nonterminal ['e']) ['é', '+'] it ∧ Next it none it' :=
  ⟨_, _, .deprecatedStarting rfl, ⟨100, rfl⟩⟩

/-! ## C06: termination -/

/-- C06: for acyclic grammars draining the iterator ends: finitely many calls return trees, all calls return, and
then `None` is returned. -/
theorem C06_terminates_acyclic {g S input it} (hac : Acyclic g) (ho : Opened g S input it) :
    ∃ ts it1 it2, Draws it ts it1 ∧ Next it1 none it2 := by
  obtain ⟨N, hN⟩ := arena_bound (acyclic_wf hac) input S
  exact drain_ends hN ho.inv.1

/-- C06: every single call returns, in every state reached by draws. -/
theorem C06_every_call_returns {g S input it ts it'} (hac : Acyclic g) (ho : Opened g S input it) (hd : Draws it ts it') :
    ∃ r it'', Next it' r it'' := by
  obtain ⟨N, hN⟩ := arena_bound (acyclic_wf hac) input S
  obtain ⟨_, _, hi', _⟩ := hd.rounds ho.inv.1
  obtain ⟨ts', it1, it2, hd', hn⟩ := drain_ends hN hi'
  cases hd' with
  | nil => exact ⟨_, _, hn⟩
  | cons hn' _ => exact ⟨_, _, hn'⟩

/-- `gExp` is acyclic although it is left recursive. -/
theorem gExp_acyclic : Acyclic gExp := by
  have hplus : ¬ Nullable gExp [.terminal ['+'], .nonterminal ['t']] := by
    rintro ⟨ns, hf, hy⟩
    cases hf with
    | terminal h => simp [yield, nodeYield] at hy
  have step : ∀ n m, UnitStep gExp n m → n = ['e'] ∧ m = ['t'] := by
    rintro n m ⟨e, pre, post, ⟨p, hp, hl, he⟩, hts, hpre, hpost⟩
    simp only [gExp, List.mem_cons, List.not_mem_nil, or_false] at hp
    rcases hp with rfl | rfl
    · simp only [Term.nonterminal.injEq] at hl
      simp only [List.mem_cons, List.not_mem_nil, or_false] at he
      rcases he with rfl | rfl
      · match pre, hts with
        | [], hts =>
          simp only [List.nil_append, List.cons.injEq, Term.nonterminal.injEq] at hts
          rw [← hts.2] at hpost
          exact absurd hpost hplus
        | [a], hts =>
          simp only [List.cons_append, List.nil_append, List.cons.injEq, reduceCtorEq, false_and, and_false] at hts
        | [a, b], hts =>
          simp only [List.cons_append, List.nil_append, List.cons.injEq] at hts
          obtain ⟨ns, hf, hy⟩ := hpre
          rw [← hts.1, ← hts.2.1] at hf
          cases hf with
          | nonterminal _ _ h =>
            cases h with
            | terminal h => simp [yield, nodeYield] at hy
        | a :: b :: c :: pre, hts =>
          simp at hts
      · match pre, hts with
        | [], hts =>
          simp only [List.nil_append, List.cons.injEq, Term.nonterminal.injEq] at hts
          exact ⟨hl.symm, hts.1.symm⟩
        | a :: pre, hts => simp at hts
    · simp only [List.mem_cons, List.not_mem_nil, or_false] at he
      rcases he with rfl | rfl
      · match pre, hts with
        | [], hts => simp at hts
        | a :: pre, hts => simp at hts
      · match pre, hts with
        | [], hts => simp at hts
        | a :: pre, hts => simp at hts
  have key : ∀ n m, Relation.TransGen (UnitStep gExp) n m → m = ['t'] := by
    intro n m h
    cases h with
    | single h => exact (step _ _ h).2
    | tail _ h => exact (step _ _ h).2
  intro n h
  have hn := key n n h
  obtain ⟨m, h1, _⟩ := Relation.TransGen.head'_iff.mp h
  rw [hn] at h1
  exact absurd (step _ _ h1).1 (by decide)

/-! ## C07: next() always returns — false for cyclic grammars -/

/-- C07 (partial): a call of `next()` returns whenever some derivation has not been returned yet, for all grammars, and
always for acyclic grammars (`C06_every_call_returns`).  Missing: calls on cyclic grammars when no derivation
is left; there the call may not return, see `C07_diverges` and `C07_witness`. -/
theorem C07_returns_while_trees_left_partial {g S input it ts it'} (ho : Opened g S input it) (hd : Draws it ts it') {t}
    (ht : IsParse g S input t) (hnt : t ∉ ts) : ∃ t' it'', Next it' (some t') it'' := by
  obtain ⟨more, it3, hd', hm⟩ := C03_completeness ho hd ht
  cases hd' with
  | nil => simp at hm; exact absurd hm hnt
  | cons hn' _ => exact ⟨_, _, hn'⟩

/-- C07 is violated: if a start alternative has infinitely many forests spelling prefixes of the input and all parse trees have been
returned, the next call never returns. -/
theorem C07_diverges {g S input it ts it'} (ho : Opened g S input it) (hd : Draws it ts it') {e}
    (ha : HasAlt g S e) (hinf : {ns | IsForest g e.terms ns ∧ ∃ r, input = yield ns ++ r}.Infinite)
    (hall : ∀ t, IsParse g S input t → t ∈ ts)
    (hnodup : (g.productions.flatMap fun p => p.rhs.map fun e => (p.lhs, e)).Nodup) : Diverges it' := by
  obtain ⟨_, _, hi', _⟩ := hd.rounds ho.inv.1
  rcases next_trichotomy hi' with ⟨r, it2, hn⟩ | h
  · cases r with
    | none => exact absurd (ended_finite ho.inv.1 hd hn ha) hinf
    | some t =>
      have hd2 := hd.append (.cons hn .nil)
      have hnd := C04_no_duplicates hnodup ho hd2
      have := hall t (C01_soundness ho hd2 t (by simp))
      rw [List.nodup_append] at hnd
      exact absurd rfl (hnd.2.2 t this t (by simp))
  · exact h

/-- `k` nested applications of `<a> ::= <a>` above `'z'`. -/
def cycNode : Nat → ParseTreeNode
  | 0 => .nonterminal (.nonterminal ['a']) [.terminal ['z']]
  | k + 1 => .nonterminal (.nonterminal ['a']) [cycNode k]

theorem cycNode_inj : Function.Injective fun k => [cycNode k] := by
  intro a b h
  simp only [List.cons.injEq, and_true] at h
  induction a generalizing b with
  | zero => cases b with
    | zero => rfl
    | succ b => cases b <;> simp [cycNode] at h
  | succ a ih => cases b with
    | zero => cases a <;> simp [cycNode] at h
    | succ b => simp [cycNode] at h; rw [ih h]

theorem cycNode_yield (k : Nat) : yield [cycNode k] = ['z'] := by
  induction k with
  | zero => rfl
  | succ k ih => simpa [cycNode, yield, nodeYield] using ih

theorem cycNode_forest (k : Nat) : IsForest gCyc [.nonterminal ['a']] [cycNode k] := by
  induction k with
  | zero => exact .nonterminal (e := ⟨[.terminal ['z']]⟩) ⟨_, List.mem_cons_self, rfl, by simp⟩ (.terminal .nil) .nil
  | succ k ih => exact .nonterminal (e := ⟨[.nonterminal ['a']]⟩) ⟨_, List.mem_cons_self, rfl, by simp⟩ ih .nil

theorem cyc_forest_yield {ts ns} (h : IsForest gCyc ts ns) (hts : ts = [.nonterminal ['a']] ∨ ts = [.terminal ['z']]) :
    yield ns = ['z'] := by
  induction h with
  | nil => simp at hts
  | terminal h _ =>
    simp at hts
    obtain ⟨rfl, rfl⟩ := hts
    cases h
    rfl
  | @nonterminal n e kids ts ns ha _ h ih _ =>
    simp at hts
    obtain ⟨rfl, rfl⟩ := hts
    cases h
    obtain ⟨p, hp, _, he⟩ := ha
    simp only [gCyc, List.mem_cons, List.not_mem_nil, or_false] at hp
    subst hp
    simp only [List.mem_cons, List.not_mem_nil, or_false] at he
    rcases he with rfl | rfl
    · simpa [yield, nodeYield] using ih (.inl rfl)
    · simpa [yield, nodeYield] using ih (.inr rfl)

/-- C07 counterexample: for `<a> ::= <a> | 'z'` and the input "zz" the very first call of `next()` never returns. -/
theorem C07_witness : ∃ it, Opened gCyc (.nonterminal ['a']) ['z', 'z'] it ∧ Diverges it := by
  obtain ⟨it, ho⟩ := opened_of (g := gCyc) (S := .nonterminal ['a']) (input := ['z', 'z']) (by simp [gCyc])
  refine ⟨it, ho, C07_diverges ho .nil (e := ⟨[.nonterminal ['a']]⟩) ⟨_, List.mem_cons_self, rfl, by simp⟩ ?_ ?_ (by decide)⟩
  · refine (Set.infinite_range_of_injective cycNode_inj).mono ?_
    rintro _ ⟨k, rfl⟩
    exact ⟨cycNode_forest k, ['z'], by rw [cycNode_yield]; rfl⟩
  · rintro t ⟨_, ⟨e, ⟨p, hp, _, he⟩, hf⟩, hy⟩
    simp only [gCyc, List.mem_cons, List.not_mem_nil, or_false] at hp
    subst hp
    simp only [List.mem_cons, List.not_mem_nil, or_false] at he
    have : yield t.rhs = ['z'] := by
      rcases he with rfl | rfl
      · exact cyc_forest_yield hf (.inl rfl)
      · exact cyc_forest_yield hf (.inr rfl)
    rw [hy] at this
    cases this

/-! ## C08: starting term -/

/-- C08: `parse_input` is `parse_input_starting_with` for the left-hand side of the first production. -/
theorem C08_default_start {ord} {g : Grammar} {p : GrammarParser} (h : g.buildParser ord = .ok p) (first : Production) (rest : List Production)
    (hg : g.productions = first :: rest) (input : Str) :
    p.parseInput input = p.parseInputStartingWith input first.lhs := by
  have := (buildParser_ok h).1
  simp only [Grammar.startingTerm, hg, Option.some.injEq] at this
  rw [this]
  rfl

/-- C08: a starting term without alternatives (for instance a terminal or an unknown name) yields nothing, for every input. -/
theorem C08_unknown_start {g S input it} (ho : Opened g S input it) (hS : ¬ ∃ e, HasAlt g S e) : Next it none it := by
  have hinv := ho.inv.1.inv
  have hq : it.st.queue.queue = [] := by
    cases hq : it.st.queue.queue with
    | nil => rfl
    | cons id rest =>
      exfalso
      have hlt := hinv.s.qlt id (by rw [hq]; simp)
      -- all entries of a fresh iterator are roots of start productions
      have hroots : it.st.tree.arena = [] := by
        have hnil : ∀ {p : GrammarParser}, p.parseGrammar = ParseGrammar.newUnchecked g →
            ParseTreeIter.new p input (some S) = some it → it.st.tree.arena = [] := by
          intro p hp hn
          unfold ParseTreeIter.new at hn
          simp only [hp, Option.getD_some, (PGOk.newUnchecked g).prodsFor, Option.some.injEq] at hn
          have hf : (ParseGrammar.newUnchecked g).productions.filter (fun p => p.lhs = S) = [] := by
            rw [List.filter_eq_nil_iff]
            intro q hq' hl
            obtain ⟨i, hi⟩ := List.mem_iff_getElem?.mp hq'
            have ha := prod_hasAlt hi
            simp only [decide_eq_true_eq] at hl
            rw [hl] at ha
            exact hS ⟨_, ha⟩
          rw [hf] at hn
          rw [← hn]
          rfl
        cases ho with
        | parserStarting hb hi => exact hnil (buildParser_ok hb).2 hi
        | parser hb hs hi =>
          have := (buildParser_ok hb).1
          rw [hs] at this; injection this with this
          unfold GrammarParser.parseInput GrammarParser.parseInputStartingWith at hi
          rw [← this] at hi
          exact hnil (buildParser_ok hb).2 hi
        | deprecatedStarting hi =>
          unfold Grammar.parseInputStartingWithDeprecated Grammar.newUnchecked at hi
          split at hi
          · cases hi
          · rename_i p hp
            split at hp
            · cases hp
            · injection hp with hp
              exact hnil (p := p) (by rw [← hp]) hi
        | deprecated hs hi =>
          unfold Grammar.parseInputDeprecated Grammar.newUnchecked at hi
          rw [hs] at hi
          exact hnil (p := ⟨S, ParseGrammar.newUnchecked g⟩) rfl hi
      rw [hroots] at hlt
      simp at hlt
  refine ⟨1, ?_⟩
  unfold ParseTreeIter.next earley
  rw [hq]

example : ¬ ∃ e, HasAlt gExp (.terminal ['y']) e := by
  rintro ⟨e, p, hp, hl, _⟩
  simp only [gExp, List.mem_cons, List.not_mem_nil, or_false] at hp
  rcases hp with rfl | rfl <;> cases hl

/-! ## C09: order independence -/

theorem isForest_congr {g g' : Grammar} (h : ∀ l e, HasAlt g l e → HasAlt g' l e) {ts ns} (hf : IsForest g ts ns) :
    IsForest g' ts ns := by
  induction hf with
  | nil => exact .nil
  | terminal _ ih => exact .terminal ih
  | nonterminal ha _ _ ih1 ih2 => exact .nonterminal (h _ _ ha) ih1 ih2

theorem isParse_congr {g g' : Grammar} (h : ∀ l e, HasAlt g l e ↔ HasAlt g' l e) {S input t} :
    IsParse g S input t ↔ IsParse g' S input t := by
  constructor
  · rintro ⟨h1, ⟨e, ha, hf⟩, h3⟩
    exact ⟨h1, ⟨e, (h _ _).mp ha, isForest_congr (fun l e => (h l e).mp) hf⟩, h3⟩
  · rintro ⟨h1, ⟨e, ha, hf⟩, h3⟩
    exact ⟨h1, ⟨e, (h _ _).mpr ha, isForest_congr (fun l e => (h l e).mpr) hf⟩, h3⟩

/-- C09: grammars with the same alternatives (in any order and grouping) return the same set of trees. -/
theorem C09_same_trees {g g' : Grammar} (h : ∀ l e, HasAlt g l e ↔ HasAlt g' l e) {S input it it'}
    (ho : Opened g S input it) (ho' : Opened g' S input it') (t : ParseTree) :
    (∃ ts it1, Draws it ts it1 ∧ t ∈ ts) ↔ (∃ ts it1, Draws it' ts it1 ∧ t ∈ ts) := by
  constructor
  · rintro ⟨ts, it1, hd, ht⟩
    have := (isParse_congr h).mp (C01_soundness ho hd t ht)
    obtain ⟨more, it2, hd2, hm⟩ := C03_completeness ho' .nil this
    exact ⟨more, it2, hd2, by simpa using hm⟩
  · rintro ⟨ts, it1, hd, ht⟩
    have := (isParse_congr h).mpr (C01_soundness ho' hd t ht)
    obtain ⟨more, it2, hd2, hm⟩ := C03_completeness ho .nil this
    exact ⟨more, it2, hd2, by simpa using hm⟩

/-- C09: if the alternatives agree as multisets without repetition, draining both gives the same trees up to order. -/
theorem C09_drained_perm {g g' : Grammar}
    (hp : (g.productions.flatMap fun p => p.rhs.map fun e => (p.lhs, e)).Perm
      (g'.productions.flatMap fun p => p.rhs.map fun e => (p.lhs, e)))
    (hn : (g.productions.flatMap fun p => p.rhs.map fun e => (p.lhs, e)).Nodup)
    {S input it it' ts ts' it1 it2 it1' it2'}
    (ho : Opened g S input it) (ho' : Opened g' S input it')
    (hd : Draws it ts it1) (he : Next it1 none it2) (hd' : Draws it' ts' it1') (he' : Next it1' none it2') :
    ts.Perm ts' := by
  have h : ∀ l e, HasAlt g l e ↔ HasAlt g' l e := by
    intro l e
    rw [← mem_flatProds, ← mem_flatProds]
    exact hp.mem_iff
  rw [List.perm_ext_iff_of_nodup (C04_no_duplicates hn ho hd) (C04_no_duplicates (hp.nodup_iff.mp hn) ho' hd')]
  intro t
  rw [C05_exhausted_exact ho hd he, C05_exhausted_exact ho' hd' he', isParse_congr h]

/-- `gExp` with reversed productions and alternatives and with the alternatives of `t` in two productions. -/
def gExp' : Grammar := ⟨[⟨.nonterminal ['t'], [⟨[.terminal ['y']]⟩]⟩, ⟨.nonterminal ['t'], [⟨[.terminal ['é']]⟩]⟩,
  ⟨.nonterminal ['e'], [⟨[.nonterminal ['t']]⟩, ⟨[.nonterminal ['e'], .terminal ['+'], .nonterminal ['t']]⟩]⟩]⟩

example : (gExp.productions.flatMap fun p => p.rhs.map fun e => (p.lhs, e)).Perm
    (gExp'.productions.flatMap fun p => p.rhs.map fun e => (p.lhs, e)) := by decide

/-! ## C10: deprecated entry points -/

/-- C10: the deprecated functions return the very iterator of the parser. -/
theorem C10_deprecated_agree {ord} {g : Grammar} {p : GrammarParser} (h : g.buildParser ord = .ok p) (input : Str) :
    g.parseInputDeprecated input = p.parseInput input ∧
    ∀ S, g.parseInputStartingWithDeprecated input S = p.parseInputStartingWith input S := by
  obtain ⟨h1, h2⟩ := buildParser_ok h
  have hp : g.newUnchecked = some p := by
    unfold Grammar.newUnchecked
    rw [h1]
    simp only [Option.some.injEq]
    rw [← h2]
  constructor
  · unfold Grammar.parseInputDeprecated
    rw [hp]
    rfl
  · intro S
    unfold Grammar.parseInputStartingWithDeprecated
    rw [hp]
    rfl

/-- C10: they panic exactly on grammars without productions. -/
theorem C10_deprecated_panic_iff (g : Grammar) (input : Str) :
    (g.parseInputDeprecated input = none ↔ g.productions = []) ∧
    ∀ S, g.parseInputStartingWithDeprecated input S = none ↔ g.productions = [] := by
  unfold Grammar.parseInputDeprecated Grammar.parseInputStartingWithDeprecated Grammar.newUnchecked Grammar.startingTerm
  cases hp : g.productions with
  | nil => simp
  | cons p ps =>
    constructor
    · obtain ⟨it, h1, _⟩ := new_inv (p := ⟨p.lhs, ParseGrammar.newUnchecked g⟩) (g := g) rfl input p.lhs
      unfold ParseTreeIter.new at h1 ⊢
      simp only [Option.getD_some, Option.getD_none] at h1 ⊢
      simp [h1]
    · intro S
      obtain ⟨it, h1, _⟩ := new_inv (p := ⟨p.lhs, ParseGrammar.newUnchecked g⟩) (g := g) rfl input S
      simp [h1]

/-! ## C11: no panics -/

/-- C11: opening an iterator with a built parser never panics. -/
theorem C11_open_no_panic {ord} {g : Grammar} {p : GrammarParser} (h : g.buildParser ord = .ok p) (input : Str) (S : Term) :
    p.parseInputStartingWith input S ≠ none ∧ p.parseInput input ≠ none := by
  obtain ⟨_, h2⟩ := buildParser_ok h
  constructor
  · obtain ⟨it, h1, _⟩ := new_inv h2 input S
    unfold GrammarParser.parseInputStartingWith
    simp [h1]
  · obtain ⟨it, h1, _⟩ := new_inv h2 input p.startingTerm
    unfold GrammarParser.parseInput GrammarParser.parseInputStartingWith
    simp [h1]

/-- C11: no call of `next()` panics, in any state reachable by any calls. -/
theorem C11_next_no_panic {g S input it it'} (ho : Opened g S input it) (hr : Reach it it') : ¬ Panics it' := by
  rintro ⟨fuel, h⟩
  exact next_no_panic (hr.inv ho.inv.1) fuel h

/-! ## C12: positions -/

/-- C12: in every state of the queue loop, every traversal's end position splits the input at a character
boundary and the remaining text compared with terminals is the true remainder. -/
theorem C12_char_boundaries {g S input it} (ho : Opened g S input it) {ems st}
    (hr : Rounds it.parser.parseGrammar it.st ems st) {k : Nat} {tr : Traversal} (hk : st.tree.arena[k]? = some tr) :
    ∃ u v, input = u ++ v ∧ byteLen u = tr.range.start + tr.range.len ∧ tr.range.next = v := by
  rw [ho.inv.1.pg] at hr
  obtain ⟨hi, _⟩ := hr.inv (PGOk.newUnchecked g) ho.inv.1.inv
  obtain ⟨r, hr⟩ := hi.s.total_ok hk
  obtain ⟨u, hu, hl⟩ := getFrom_split.mp hr
  refine ⟨u, r, hu, hl.symm, ?_⟩
  unfold InputRange.next
  rw [(hi.s.entries k tr hk).input_eq]
  simp only [Traversal.total, InputRange.totalLen] at hr
  rw [hr]; rfl

/-- C12: the start of every traversal is a character boundary, too. -/
theorem C12_start_boundaries {g S input it} (ho : Opened g S input it) {ems st}
    (hr : Rounds it.parser.parseGrammar it.st ems st) {k : Nat} {tr : Traversal} (hk : st.tree.arena[k]? = some tr) :
    ∃ u v w, input = u ++ v ++ w ∧ byteLen u = tr.range.start ∧ byteLen v = tr.range.len := by
  rw [ho.inv.1.pg] at hr
  obtain ⟨hi, _⟩ := hr.inv (PGOk.newUnchecked g) ho.inv.1.inv
  obtain ⟨ks, _, r, _, _, _, _, _, hf, hl⟩ := hi.s.sem k tr hk
  obtain ⟨u, hu, hl'⟩ := getFrom_split.mp hf
  exact ⟨u, dyield ks, r, by simp [hu], hl'.symm, hl.symm⟩

/-- C12: the clamp in `advance_by` never cuts: an extended traversal is longer than its parent by exactly the length of
the matched terminal or child traversal. -/
theorem C12_no_clamp {g S input it} (ho : Opened g S input it) {ems st}
    (hr : Rounds it.parser.parseGrammar it.st ems st) {k : Nat} {tr : Traversal} (hk : st.tree.arena[k]? = some tr)
    {e} (hs : tr.src = some e) : ∃ tp, st.tree.arena[e.parent]? = some tp ∧ tr.range.start = tp.range.start ∧
      match e.term with
      | .terminal s => tr.range.len = tp.range.len + byteLen s
      | .nonterminal c => ∃ tc, st.tree.arena[c]? = some tc ∧ tr.range.len = tp.range.len + tc.range.len := by
  rw [ho.inv.1.pg] at hr
  obtain ⟨hi, _⟩ := hr.inv (PGOk.newUnchecked g) ho.inv.1.inv
  obtain ⟨_, _, tp, h1, _, h3, _, h4⟩ := (hi.s.entries k tr hk).link e hs
  refine ⟨tp, h1, h3, ?_⟩
  obtain ⟨m, par⟩ := e
  generalize tr.range.len = L at h4
  generalize tr.unmatched = U at h4
  cases h4 with
  | terminal _ _ => rfl
  | nonterminal hc _ _ _ _ _ => exact ⟨_, hc, rfl⟩

/-! ## C13: fused and resumable -/

/-- C13: after `None`, every further call returns `None` and leaves the state unchanged. -/
theorem C13_fused {g S input it it' it''} (ho : Opened g S input it) (hr : Reach it it') (hn : Next it' none it'') :
    Next it'' none it'' ∧ ∀ r it3, Next it'' r it3 → r = none ∧ it3 = it'' := by
  obtain ⟨_, hi, hq, _⟩ := Next.none_rounds (hr.inv ho.inv.1) hn
  have h : Next it'' none it'' := by
    refine ⟨1, ?_⟩
    unfold ParseTreeIter.next earley
    rw [hq]
  refine ⟨h, fun r it3 h' => ?_⟩
  obtain ⟨h1, h2⟩ := h.det h'
  exact ⟨h1.symm, h2.symm⟩

/-- C13: calls are deterministic: two histories of the same length from the same state agree. -/
theorem C13_deterministic {it ts ts' it1 it2} (h : Draws it ts it1) (h' : Draws it ts' it2)
    (hl : ts.length = ts'.length) : ts = ts' ∧ it1 = it2 := by
  induction h generalizing ts' with
  | nil =>
    cases h' with
    | nil => exact ⟨rfl, rfl⟩
    | cons _ _ => simp at hl
  | cons hn _ ih =>
    cases h' with
    | nil => simp at hl
    | cons hn' hd' =>
      obtain ⟨h1, h2⟩ := hn.det hn'
      injection h1 with h1
      subst h1 h2
      obtain ⟨h3, h4⟩ := ih hd' (by simpa using hl)
      exact ⟨by rw [h3], h4⟩

/-- C13: drawing `ts` and then `ts'` is drawing `ts ++ ts'`. -/
theorem C13_resumable {it ts ts' it2} : Draws it (ts ++ ts') it2 ↔ ∃ it1, Draws it ts it1 ∧ Draws it1 ts' it2 := by
  constructor
  · intro h
    induction ts generalizing it with
    | nil => exact ⟨it, .nil, h⟩
    | cons t ts ih =>
      cases h with
      | cons hn hd =>
        obtain ⟨it1, h1, h2⟩ := ih hd
        exact ⟨it1, .cons hn h1, h2⟩
  · rintro ⟨it1, h1, h2⟩
    exact h1.append h2

/-! ## C50: completion index -/

/-- C50: in every state of the queue loop the index of waiting traversals lists, for every term and position, in strictly
increasing order exactly the created and no longer queued traversals whose next term is that
nonterminal and whose text so far ends there. -/
theorem C50_waiting_index {g S input it} (ho : Opened g S input it) {ems st}
    (hr : Rounds it.parser.parseGrammar it.st ems st) (T : Term) (i : Nat) :
    ((st.completions.incomplete.get (T, i)).getD []).Pairwise (· < ·) ∧
    ∀ k, k ∈ (st.completions.incomplete.get (T, i)).getD [] ↔ k ∉ st.queue.queue ∧ ∃ t n rest,
      st.tree.arena[k]? = some t ∧ t.unmatched = .nonterminal n :: rest ∧ T = .nonterminal n ∧
      t.range.start + t.range.len = i := by
  rw [ho.inv.1.pg] at hr
  obtain ⟨hi, _⟩ := hr.inv (PGOk.newUnchecked g) ho.inv.1.inv
  refine ⟨hi.c.incS _, fun k => ?_⟩
  rw [hi.c.inc]
  constructor
  · rintro ⟨h1, h2⟩; exact ⟨h1.2, h2⟩
  · rintro ⟨h1, t, n, rest, h2, h3⟩
    exact ⟨⟨(List.getElem?_eq_some_iff.mp h2).1, h1⟩, t, n, rest, h2, h3⟩

/-- C50: likewise for completed traversals, listed under their production's left-hand side and start. -/
theorem C50_completed_index {g S input it} (ho : Opened g S input it) {ems st}
    (hr : Rounds it.parser.parseGrammar it.st ems st) (T : Term) (i : Nat) :
    ((st.completions.complete.get (T, i)).getD []).Pairwise (· < ·) ∧
    ∀ k, k ∈ (st.completions.complete.get (T, i)).getD [] ↔ k ∉ st.queue.queue ∧ ∃ t p,
      st.tree.arena[k]? = some t ∧ t.unmatched = [] ∧
      it.parser.parseGrammar.productions[t.prodId]? = some p ∧ p.lhs = T ∧ t.range.start = i := by
  rw [ho.inv.1.pg] at hr ⊢
  obtain ⟨hi, _⟩ := hr.inv (PGOk.newUnchecked g) ho.inv.1.inv
  refine ⟨hi.c.comS _, fun k => ?_⟩
  rw [hi.c.com]
  constructor
  · rintro ⟨h1, h2⟩; exact ⟨h1.2, h2⟩
  · rintro ⟨h1, t, p, h2, h3⟩
    exact ⟨⟨(List.getElem?_eq_some_iff.mp h2).1, h1⟩, t, p, h2, h3⟩

/-- Non-trivial case for C12 and C50: a state after some rounds with waiting and completed traversals. -/
example : ∃ it ems st, Opened gExp (.nonterminal ['e']) ['é', '+', 'y'] it ∧
    Rounds it.parser.parseGrammar it.st ems st ∧
    ((st.completions.incomplete.get (.nonterminal ['e'], 0)).getD []) = [0] ∧
    ((st.completions.complete.get (.nonterminal ['t'], 0)).getD []) = [4] :=
  ⟨_, _, _, .deprecatedStarting rfl, .quiet rfl rfl (.quiet rfl rfl (.quiet rfl rfl (.quiet rfl rfl (.quiet rfl rfl .refl)))),
    rfl, rfl⟩

end Bnf.Props
