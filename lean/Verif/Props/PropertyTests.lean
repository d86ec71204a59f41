import Verif.Proofs.PropertyTests
import Verif.Props.Text
import Verif.Props.Meta
import Verif.Props.Copies
import Verif.Props.Validation

/-! # Properties C94 and C95: the crate's property tests, for everything their generators can produce -/

set_option autoImplicit false

namespace Bnf.Props
open Bnf Spec

/-! ## C94: tests of reading and printing -/

/-- C94: the four tests `to_string_and_back` (`src/term.rs` 124, `src/expression.rs` 213, `src/production.rs` 195, `src/grammar.rs` 929)
pass for every value their generators produce. -/
theorem C94_to_string_and_back {f : Char → Bool} (hf : AlphabeticTable f) :
    (∀ t, ArbitraryTerm t → Term.fromStr t.display = some (.ok t)) ∧
    (∀ e, ArbitraryExpression e → Expression.fromStr e.display = some (.ok e)) ∧
    (∀ p, ArbitraryProduction p → Production.fromStr p.display = some (.ok p)) ∧
    (∀ g, ArbitraryGrammar g → Grammar.fromStr f g.display = some (.ok g)) :=
  ⟨fun t h => (term_round_trip t).mpr (arbitraryTerm_printable h),
    fun e h => (C18_expression_round_trip e).mpr (arbitraryExpression_printable h),
    fun p h => (C19_production_round_trip p).mpr (arbitraryProduction_printable h),
    fun g h => (C20_grammar_round_trip hf g).mpr (arbitraryGrammar_printable h)⟩

/-- C94: the generator of terms produces exactly the terms for which the test passes: it leaves out nothing that works. -/
theorem C94_generator_exact (t : Term) : ArbitraryTerm t ↔ Term.fromStr t.display = some (.ok t) := by
  refine ⟨fun h => (term_round_trip t).mpr (arbitraryTerm_printable h), fun h => ?_⟩
  have hp := (term_round_trip t).mp h
  cases t with
  | nonterminal u =>
    refine ⟨true, u, ?_⟩
    simp only [arbitraryTerm, if_true]
    rw [List.filter_eq_self.2 fun c hc => ?_]
    simp only [bne_iff_ne]
    rintro rfl
    exact hp hc
  | terminal u =>
    refine ⟨false, u, ?_⟩
    simp only [arbitraryTerm, Bool.false_eq_true, if_false]
    split
    · rename_i hq
      rw [List.filter_eq_self.2 fun c hc => ?_]
      simp only [bne_iff_ne]
      rintro rfl
      exact hp.elim (fun h => h hq) (fun h => h hc)
    · split
      · rename_i hq
        rw [List.filter_eq_self.2 fun c hc => ?_]
        simp only [bne_iff_ne]
        rintro rfl
        exact absurd hc (by assumption)
      · rfl

example : ArbitraryTerm (.terminal ['i', 't', '"', 's']) := ⟨false, ['i', 't', '"', '\'', 's'], by decide⟩
example : ArbitraryGrammar ⟨[⟨.nonterminal ['a'], [⟨[.terminal ['\''], .nonterminal []]⟩]⟩]⟩ :=
  ⟨by simp, by
    simp only [List.mem_singleton, forall_eq]
    exact ⟨⟨['a', '>'], by decide⟩, by simp, by
      simp only [List.mem_singleton, forall_eq]
      exact ⟨by simp, by
        simp only [List.mem_cons, List.not_mem_nil, or_false, forall_eq_or_imp, forall_eq]
        exact ⟨⟨false, ['\''], by decide⟩, ⟨true, [], by decide⟩⟩⟩⟩⟩

/-- C94: `test_generated_grammars` and `test_generated_grammars_abnf` (`tests/grammar.rs` 81, 95) pass: both fixtures are read, as the same
grammar, and whatever `generate_seeded` returns for it is accepted. -/
theorem C94_generated_grammars {f : Char → Bool} (hf : AlphabeticTable f) :
    ∃ g, Grammar.fromStr f bnfForBnf = some (.ok g) ∧ Grammar.fromStr f abnfForBnf = some (.ok g) ∧
      ∀ {ρ Seed : Type} (R : Rng ρ Seed) (fuel : Nat) (rng : ρ) (r : Except Error Str) (st : ρ), (g.generateSeeded R fuel rng).1 = .done r st →
        ∃ s g', r = .ok s ∧ Grammar.fromStr f s = some (.ok g') :=
  ⟨metaGrammar, (C87_fixtures hf).1, (C87_fixtures hf).2, fun R fuel rng r st h => (C87_seeded R f fuel rng).2 r st h⟩

/-! ## C95: tests of the parser -/

theorem undefined_lacking {g : Grammar} (h : GrammarWithUndefined g) : ∃ n, Referenced g n ∧ ¬ Declared g n := by
  obtain ⟨p, ps, e, es, j, ts, h1, h2, _, h3⟩ := h.first
  refine ⟨undefinedName j, ⟨p.lhs, e, ⟨p, by rw [h1]; simp, rfl, by rw [h2]; simp⟩, by rw [h3]; simp⟩, ?_⟩
  rintro ⟨q, hq, hl⟩
  obtain ⟨i, hi, hqi⟩ := List.mem_iff_getElem.1 hq
  rw [h.lhs i q (by rw [List.getElem?_eq_getElem hi, hqi])] at hl
  injection hl with hl
  exact ntName_ne_undefined i j hl

/-- C95: `parser_fails_with_undefined_nonterminal` and `validation_catches_all_undefined` (`src/parser/mod.rs` 463, 615) pass for every grammar of
their generator and every order of the hash set: building the parser is a validation error whose message contains, in angle brackets, a
name that is used and not declared. -/
theorem C95_undefined {g : Grammar} (h : GrammarWithUndefined g) (ord : List Str → List Str) (hord : ∀ l, (ord l).Perm l) :
    ∃ msg, g.buildParser ord = .error (.validationError msg) ∧ ∃ n, Lacking g n ∧ ('<' :: (n ++ ['>'])) <:+: msg := by
  have hne : g.productions ≠ [] := by obtain ⟨p, ps, _, _, _, _, h1, _⟩ := h.first; rw [h1]; simp
  obtain ⟨m, hm, hd⟩ := undefined_lacking h
  cases hb : g.buildParser ord with
  | ok p =>
    obtain ⟨e, q, hq, hl, _⟩ := ((C14_build_parser_ok_iff ord hord g).mp ⟨p, hb⟩).2 m hm
    exact absurd ⟨q, hq, hl⟩ hd
  | error e =>
    obtain ⟨n, hr, hnd, rfl⟩ := C15_build_parser_error_names_undefined ord hord g hne e hb
    refine ⟨_, rfl, n, ⟨hr, ?_⟩, ⟨"Undefined nonterminals: ".toList, [], ?_⟩⟩
    · rintro ⟨q, hq, hl⟩
      have := (h.rhs q hq).1
      obtain ⟨e, es, he⟩ := List.exists_cons_of_ne_nil (l := q.rhs) (by intro h0; simp [h0] at this)
      exact hnd ⟨e, q, hq, hl, by rw [he]; simp⟩
    · have h1 : "Undefined nonterminals: <".toList = "Undefined nonterminals: ".toList ++ ['<'] := by decide
      have h2 : ">".toList = ['>'] := by decide
      rw [h1, h2]
      simp

/-- `<nt0> ::= <undefined0>`. -/
example : GrammarWithUndefined ⟨[⟨.nonterminal ['n', 't', '0'], [⟨[.nonterminal (undefinedName 0)]⟩]⟩]⟩ where
  few := by simp
  lhs := by
    intro i p h
    match i, h with
    | 0, h => simp at h; subst h; decide
    | i + 1, h => simp at h
  rhs := by simp
  terms := by
    simp only [List.mem_singleton, forall_eq, List.length_singleton]
    exact ⟨by omega, by omega, .inr (.inr ⟨0, by omega, rfl⟩)⟩
  first := ⟨_, _, _, _, 0, _, rfl, rfl, by omega, rfl⟩

/-- C95: the grammars of the other two generators are accepted, in any order of their productions, and parsing any text with them ends. -/
theorem C95_layered_parses {lo hi alts terms : Nat} {g g' : Grammar} (h : LayeredGrammar lo hi alts terms g) (hlo : 1 ≤ lo)
    (hp : g'.productions.Perm g.productions) (ord : List Str → List Str) (hord : ∀ l, (ord l).Perm l) :
    ∃ p, g'.buildParser ord = .ok p ∧ ∀ S input, ∃ it ts, p.parseInputStartingWith input S = some it ∧ Opened g' S input it ∧ Collects it ts := by
  have hlen := hp.length_eq
  have hne : g'.productions ≠ [] := by intro h0; rw [h0] at hlen; have := h.few.1; simp at hlen; omega
  have hd : ∀ n, Referenced g' n → Defined g' n := by
    rintro n ⟨l, e, ha, hn⟩
    obtain ⟨e', ha'⟩ := layered_defined h n ⟨l, e, (hasAlt_perm hp l e).mp ha, hn⟩
    exact ⟨e', (hasAlt_perm hp _ _).mpr ha'⟩
  obtain ⟨p, hb⟩ := (C14_build_parser_ok_iff ord hord g').mpr ⟨hne, hd⟩
  refine ⟨p, hb, fun S input => ?_⟩
  have hac : Acyclic g' := by
    apply acyclic_of_layers
    intro l e ha
    obtain ⟨i, _, h1, _, h2⟩ := layered_alt h ((hasAlt_perm hp l e).mp ha)
    refine ⟨i, h1, fun m hm => ?_⟩
    rcases h2 _ hm with ⟨u, hu⟩ | ⟨j, hj, hm⟩
    · cases hu
    · injection hm with hm; exact ⟨j, hj, hm⟩
  cases hi : p.parseInputStartingWith input S with
  | none => exact absurd hi (C11_open_no_panic hb input S).1
  | some it =>
    have ho : Opened g' S input it := .parserStarting hb hi
    obtain ⟨ts, it1, it2, h1, h2⟩ := C06_terminates_acyclic hac ho
    exact ⟨it, ts, rfl, ho, it1, it2, h1, h2⟩

/-- C95: `parser_order_independent` (`src/parser/mod.rs` 524) passes for every shuffle and every sentence, generated or not: the same trees are
found, equally often. -/
theorem C95_order_independent {g g' : Grammar} (h : ValidGrammarWithMultipleProductions g) (hp : g'.productions.Perm g.productions)
    (ord ord' : List Str → List Str) (hord : ∀ l, (ord l).Perm l) (hord' : ∀ l, (ord' l).Perm l) (S : Term) (sentence : Str) :
    ∃ p p' it it' ts ts', g.buildParser ord = .ok p ∧ g'.buildParser ord' = .ok p' ∧
      p.parseInputStartingWith sentence S = some it ∧ p'.parseInputStartingWith sentence S = some it' ∧
      Collects it ts ∧ Collects it' ts' ∧ ts.Perm ts' ∧ ts.length = ts'.length := by
  obtain ⟨p, hb, h1⟩ := C95_layered_parses h (by omega) (.refl _) ord hord
  obtain ⟨p', hb', h1'⟩ := C95_layered_parses h (by omega) hp ord' hord'
  obtain ⟨it, ts, hi, ho, it1, it2, hd, hn⟩ := h1 S sentence
  obtain ⟨it', ts', hi', ho', it1', it2', hd', hn'⟩ := h1' S sentence
  have hperm := C09_drained_perm_repeated (timesListed_perm hp) ho ho' hd hn hd' hn'
  exact ⟨p, p', it, it', ts, ts', hb, hb', hi, hi', ⟨_, _, hd, hn⟩, ⟨_, _, hd', hn'⟩, hperm, hperm.length_eq⟩

/-- C95: a collection is determined by the iterator. -/
theorem C95_collects_unique {it : ParseTreeIter} {ts ts' : List ParseTree} (h : Collects it ts) (h' : Collects it ts') : ts = ts' := by
  obtain ⟨it1, it2, hd, hn⟩ := h
  obtain ⟨it1', it2', hd', hn'⟩ := h'
  induction hd generalizing ts' with
  | nil =>
    cases hd' with
    | nil => rfl
    | cons hs _ => exact absurd (hs.det hn).1 (by simp)
  | cons hs _ ih =>
    cases hd' with
    | nil => exact absurd (hs.det hn').1 (by simp)
    | cons hs' hd'' =>
      obtain ⟨e1, e2⟩ := hs.det hs'
      injection e1 with e1
      subst e1 e2
      rw [ih hn hd'']

/-- C95: `parser_reusable` (`src/parser/mod.rs` 576) passes: `terminates()` is true, generation succeeds (whatever the random source), and
every collection of the trees of a sentence with the same parser gives the same trees.  -/
theorem C95_reusable {g : Grammar} (h : SimpleValidGrammar g) (ord : List Str → List Str) (hord : ∀ l, (ord l).Perm l) :
    g.terminates = some true ∧ (∀ {ρ Seed : Type} (R : Rng ρ Seed) (fuel : Nat) (seed : Seed), ∃ s st, g.generate R (fuel + 1) seed = .done (.ok s) st) ∧
    ∃ p, g.buildParser ord = .ok p ∧ ∀ sentence, ∃ it ts, p.parseInput sentence = some it ∧ Collects it ts ∧
      ∀ it' ts', p.parseInput sentence = some it' → Collects it' ts' → ts' = ts := by
  obtain ⟨q, ps, h1, h2, h3, h4⟩ := layered_first h (by omega)
  obtain ⟨e0, es, he0⟩ := List.exists_cons_of_ne_nil h3
  have hst : g.startingTerm = some (.nonterminal (ntName 0)) := by unfold Grammar.startingTerm; rw [h1]; simp [h2]
  have hder : ∃ w, Derives g (.nonterminal (ntName 0)) w := by
    obtain ⟨ns, hf⟩ := allTerminal_forest (g := g) (h4 e0 (by rw [he0]; simp)).2
    exact ⟨yield ns, ⟨_, ns⟩, rfl, ⟨e0, ⟨q, by rw [h1]; simp, h2, by rw [he0]; simp⟩, hf⟩, rfl⟩
  have hterm : g.terminates = some true := by
    obtain ⟨b, k1, k2⟩ := C33_terminates_iff g
    obtain ⟨w, hw⟩ := hder
    rw [k1, k2.2 (.inr ⟨_, w, hst, hw⟩)]
  refine ⟨hterm, fun {ρ Seed} R fuel seed => ?_, ?_⟩
  · have hnc : productionHasNoChoice q = false := by
      unfold productionHasNoChoice
      cases es with
      | nil =>
        rw [he0]
        have := (h4 e0 (by rw [he0]; simp)).1
        simp only
        cases ht : e0.terms with
        | nil => exact absurd ht this
        | cons _ _ => rfl
      | cons _ _ => rw [he0]
    unfold Grammar.generate Grammar.generateCallback Grammar.generateSeededCallback
    exact terminals_generate hterm h1 h2 h3 hnc (fun e he => (h4 e he).2) (by
      intro st a p d hne
      exact randomWalk_chooses (R := R) st.1 a p d hne) (fun _ _ _ => rfl) fuel _
  · obtain ⟨p, hb, k⟩ := C95_layered_parses h (by omega) (.refl _) ord hord
    refine ⟨p, hb, fun sentence => ?_⟩
    obtain ⟨it, ts, hi, _, hc⟩ := k p.startingTerm sentence
    refine ⟨it, ts, hi, hc, fun it' ts' hi' hc' => ?_⟩
    have : it' = it := by
      have h3 : p.parseInput sentence = some it := hi
      rw [hi'] at h3; injection h3
    subst this
    exact C95_collects_unique hc' hc

/-- C95: what these two tests do not see: the starting production of such a grammar has terminals only, so no tree they compare has an inner
node besides the root. -/
theorem C95_flat_trees {lo hi alts terms : Nat} {g : Grammar} (h : LayeredGrammar lo hi alts terms g) (hlo : 1 ≤ lo) {S input it ts it'}
    (hS : g.startingTerm = some S) (ho : Opened g S input it) (hd : Spec.Draws it ts it') :
    ∀ t ∈ ts, ∀ n ∈ t.rhs, ∃ u, n = .terminal u := by
  intro t ht
  obtain ⟨hr, ⟨e, ha, hf⟩, _⟩ := C01_soundness ho hd t ht
  obtain ⟨q, ps, h1, h2, _, _⟩ := layered_first h hlo
  have hS' : S = .nonterminal (ntName 0) := by unfold Grammar.startingTerm at hS; rw [h1] at hS; simp [h2] at hS; exact hS.symm
  obtain ⟨i, _, hi, _, ht⟩ := layered_alt h ha
  rw [hr, hS'] at hi
  injection hi with hi
  have := ntName_inj hi
  subst this
  refine allTerminal_nodes (fun t htt => ?_) hf
  rcases ht t htt with hu | ⟨j, hj, _⟩
  · exact hu
  · omega

/-- `<nt0> ::= 'x' | 'x'`, `<nt1> ::= <nt0> ''`. -/
def gLayered : Grammar := ⟨[⟨.nonterminal (ntName 0), [⟨[.terminal ['x']]⟩, ⟨[.terminal ['x']]⟩]⟩,
  ⟨.nonterminal (ntName 1), [⟨[.nonterminal (ntName 0), .terminal []]⟩]⟩]⟩

theorem gLayered_layered : LayeredGrammar 2 5 2 2 gLayered where
  few := by simp [gLayered]
  lhs := by
    intro i p h
    match i, h with
    | 0, h => simp [gLayered] at h; subst h; rfl
    | 1, h => simp [gLayered] at h; subst h; rfl
    | i + 2, h => simp [gLayered] at h
  rhs := by simp [gLayered]
  terms := by simp [gLayered]
  earlier := by
    intro i p h
    match i, h with
    | 0, h => simp [gLayered] at h; subst h; simp
    | 1, h => simp [gLayered] at h; subst h; simp
    | i + 2, h => simp [gLayered] at h

/-- The shuffled grammar starts elsewhere. -/
example : ∃ g' : Grammar, g'.productions.Perm gLayered.productions ∧ g'.startingTerm ≠ gLayered.startingTerm :=
  ⟨⟨gLayered.productions.reverse⟩, List.reverse_perm _, by decide⟩

/-- C95: inserting nonterminals that derive the empty string, anywhere in any alternatives, keeps all sentences. -/
theorem C95_empty_insertion {g g' : Grammar} (h : ∀ l e, HasAlt g l e → ∃ e', HasAlt g' l e' ∧ Padded g' e.terms e'.terms) {S input}
    (hd : Derives g S input) {it} (ho : Opened g' S input it) : ∃ t it', Next it (some t) it' ∧ IsParse g' S input t :=
  C03_first_call_returns ho (padded_derives h hd)

theorem nestedEmpty_text (f : Char → Bool) : Grammar.fromStr f nestedEmptyText = some (.ok nestedEmptyBase) :=
  fromStr_of_BNF (by decide +kernel)

theorem nestedEmpty_production : Production.fromStr "<empty> ::= ''".toList = some (.ok ⟨.nonterminal ['e', 'm', 'p', 't', 'y'], [⟨[.terminal []]⟩]⟩) := by
  decide +kernel

/-- C95: `empty_rules_allow_parse` (`src/earley/mod.rs` 364) passes: the parser is built and the first call of `next` returns a tree of "a". -/
theorem C95_empty_rules (f : Char → Bool) : Grammar.fromStr f nestedEmptyText = some (.ok nestedEmptyBase) ∧
    Production.fromStr "<empty> ::= ''".toList = some (.ok ⟨.nonterminal ['e', 'm', 'p', 't', 'y'], [⟨[.terminal []]⟩]⟩) ∧
    ∀ g, NestedEmpty g → ∀ ord : List Str → List Str, (∀ l, (ord l).Perm l) →
      ∃ p it t it', g.buildParser ord = .ok p ∧ p.parseInput ['a'] = some it ∧ Next it (some t) it' ∧
        IsParse g (.nonterminal ['s', 't', 'a', 'r', 't']) ['a'] t := by
  refine ⟨nestedEmpty_text f, nestedEmpty_production, fun g hg ord hord => ?_⟩
  obtain ⟨before, lhs, pre, t, post, after, h1, h2⟩ := hg
  have hE : HasAlt g (.nonterminal ['e', 'm', 'p', 't', 'y']) ⟨[.terminal []]⟩ :=
    ⟨⟨.nonterminal ['e', 'm', 'p', 't', 'y'], [⟨[.terminal []]⟩]⟩, by rw [h2]; simp, rfl, by simp⟩
  have hEd : Derives g (.nonterminal ['e', 'm', 'p', 't', 'y']) [] :=
    ⟨⟨_, [.terminal []]⟩, rfl, ⟨_, hE, .terminal .nil⟩, rfl⟩
  have hback : ∀ l e, HasAlt ⟨nestedEmptyBase.productions ++ [⟨.nonterminal ['e', 'm', 'p', 't', 'y'], [⟨[.terminal []]⟩]⟩]⟩ l e →
      ∃ e', HasAlt g l e' ∧ Padded g e.terms e'.terms := by
    rintro l e ⟨p, hp, hl, he⟩
    simp only [h1, List.append_assoc, List.cons_append, List.mem_append, List.mem_cons] at hp
    rcases hp with hp | rfl | hp
    · exact ⟨e, ⟨p, by rw [h2]; simp [hp], hl, he⟩, padded_refl _⟩
    · simp only [List.mem_singleton] at he
      subst he hl
      exact ⟨_, ⟨⟨_, [⟨pre ++ .nonterminal ['e', 'm', 'p', 't', 'y'] :: t :: post⟩]⟩, by rw [h2]; simp, rfl, List.mem_singleton.2 rfl⟩, padded_append (padded_refl _) (.insert hEd (padded_refl _))⟩
    · exact ⟨e, ⟨p, by rw [h2]; simp only [List.append_assoc, List.cons_append, List.mem_append, List.mem_cons]; exact .inr (.inr hp), hl, he⟩, padded_refl _⟩
  have hbase : Derives ⟨nestedEmptyBase.productions ++ [⟨.nonterminal ['e', 'm', 'p', 't', 'y'], [⟨[.terminal []]⟩]⟩]⟩
      (.nonterminal ['s', 't', 'a', 'r', 't']) ['a'] := by
    refine ⟨⟨_, [.nonterminal (.nonterminal ['a']) [.terminal ['a'], .nonterminal (.nonterminal ['e', 'm', 'p', 't', 'y']) [.terminal []]],
      .nonterminal (.nonterminal ['e', 'm', 'p', 't', 'y']) [.terminal []]]⟩, rfl, ⟨_, ⟨_, List.mem_cons_self, rfl, List.mem_singleton.2 rfl⟩, ?_⟩, rfl⟩
    have he : IsForest ⟨nestedEmptyBase.productions ++ [⟨.nonterminal ['e', 'm', 'p', 't', 'y'], [⟨[.terminal []]⟩]⟩]⟩
        [.nonterminal ['e', 'm', 'p', 't', 'y']] [.nonterminal (.nonterminal ['e', 'm', 'p', 't', 'y']) [.terminal []]] :=
      .nonterminal (e := ⟨[.terminal []]⟩) ⟨_, List.mem_append_right _ (List.mem_singleton.2 rfl), rfl, List.mem_singleton.2 rfl⟩ (.terminal .nil) .nil
    exact .nonterminal (e := ⟨[.terminal ['a'], .nonterminal ['e', 'm', 'p', 't', 'y']]⟩)
      ⟨_, List.mem_append_left _ (List.mem_cons_of_mem _ List.mem_cons_self), rfl, List.mem_singleton.2 rfl⟩ (.terminal he) he
  have hstart : g.startingTerm = some (.nonterminal ['s', 't', 'a', 'r', 't']) ∧
      ∀ n, Referenced g n → n = ['a'] ∨ n = ['e', 'm', 'p', 't', 'y'] := by
    have hb : ∀ p ∈ nestedEmptyBase.productions, ∀ e ∈ p.rhs, ∀ m, .nonterminal m ∈ e.terms → m = ['a'] ∨ m = ['e', 'm', 'p', 't', 'y'] := by
      simp [nestedEmptyBase]
    constructor
    · unfold Grammar.startingTerm
      rw [h2]
      cases before with
      | nil => simp [nestedEmptyBase] at h1; simp [h1.1.1]
      | cons q qs => simp [nestedEmptyBase] at h1; simp [← h1.1]
    · rintro n ⟨l, e, ⟨p, hp, hl, he⟩, hn⟩
      simp only [h2, List.append_assoc, List.cons_append, List.mem_append, List.mem_cons, List.not_mem_nil, or_false] at hp
      rcases hp with hp | rfl | hp | rfl
      · exact hb p (by rw [h1]; simp [hp]) e he n hn
      · simp only [List.mem_singleton] at he
        subst he
        simp only [List.mem_append, List.mem_cons] at hn
        rcases hn with hn | hn | hn
        · exact hb ⟨lhs, [⟨pre ++ t :: post⟩]⟩ (by rw [h1]; simp) _ (List.mem_singleton.2 rfl) n (by simp [hn])
        · injection hn with hn; exact .inr hn
        · exact hb ⟨lhs, [⟨pre ++ t :: post⟩]⟩ (by rw [h1]; simp) _ (List.mem_singleton.2 rfl) n (by simp [hn])
      · exact hb p (by rw [h1]; simp [hp]) e he n hn
      · simp at he; subst he; simp at hn
  have hdef : ∀ n, Referenced g n → Defined g n := by
    intro n hn
    rcases hstart.2 n hn with rfl | rfl
    · obtain ⟨e', ha, _⟩ := hback (.nonterminal ['a']) ⟨[.terminal ['a'], .nonterminal ['e', 'm', 'p', 't', 'y']]⟩
        ⟨_, List.mem_append_left _ (List.mem_cons_of_mem _ List.mem_cons_self), rfl, List.mem_singleton.2 rfl⟩
      exact ⟨e', ha⟩
    · exact ⟨_, hE⟩
  obtain ⟨p, hb⟩ := (C14_build_parser_ok_iff ord hord g).mpr ⟨by rw [h2]; simp, hdef⟩
  cases hi : p.parseInput ['a'] with
  | none => exact absurd hi (C11_open_no_panic hb ['a'] (.terminal [])).2
  | some it =>
    obtain ⟨t, it', h3, h4⟩ := C95_empty_insertion hback hbase (.parser hb hstart.1 hi)
    exact ⟨p, it, t, it', hb, hi, h3, h4⟩

/-- `<start> ::= <a> <empty> <empty>`. -/
example : NestedEmpty ⟨[⟨.nonterminal ['s', 't', 'a', 'r', 't'],
      [⟨[.nonterminal ['a'], .nonterminal ['e', 'm', 'p', 't', 'y'], .nonterminal ['e', 'm', 'p', 't', 'y']]⟩]⟩,
    ⟨.nonterminal ['a'], [⟨[.terminal ['a'], .nonterminal ['e', 'm', 'p', 't', 'y']]⟩]⟩,
    ⟨.nonterminal ['e', 'm', 'p', 't', 'y'], [⟨[.terminal []]⟩]⟩]⟩ :=
  ⟨[], _, [.nonterminal ['a']], _, [], _, rfl, rfl⟩

end Bnf.Props
