import Verif.Proofs.Meta
import Verif.Props.Text
import Verif.Props.Generate
import Verif.Props.Chance

/-!
# Properties C87 and C88: the grammar for grammars that the crate's tests use

`tests/grammar.rs` samples C87 with a thousand random grammars each.
-/

set_option autoImplicit false

namespace Bnf.Props
open Bnf Spec

/-! ## C87 -/

theorem bnf_fixture : Grammar.parseFrom BNF bnfForBnf = some (.ok metaGrammar) := by decide +kernel
theorem abnf_fixture : Grammar.parseFrom (ABNF Char.isAlpha) abnfForBnf = some (.ok metaGrammar) := by decide +kernel
theorem abnf_fixture_ascii : ∀ c ∈ abnfForBnf, c.toNat < 128 := by decide +kernel

/-- C87: both files are accepted, whatever `char::is_alphabetic` says outside of ASCII, and give the same grammar. -/
theorem C87_fixtures {f : Char → Bool} (hf : AlphabeticTable f) :
    Grammar.fromStr f bnfForBnf = some (.ok metaGrammar) ∧ Grammar.fromStr f abnfForBnf = some (.ok metaGrammar) := by
  refine ⟨fromStr_of_BNF bnf_fixture, fromStr_of_ABNF hf ?_⟩
  obtain ⟨pg, h1, h2⟩ := (parseFrom_ok (ABNF_regular table_example)).mp abnf_fixture
  exact (parseFrom_ok (ABNF_regular hf)).mpr ⟨pg, text_congr h1 fun c hc => (hf.ascii c (abnf_fixture_ascii c hc)).symm, h2⟩

/-- C87: every sentence of this grammar is accepted by `from_str`. -/
theorem C87_sentences (f : Char → Bool) {w : Str} (h : Derives metaGrammar (.nonterminal nSyntax) w) :
    ∃ g, Grammar.fromStr f w = some (.ok g) := by
  obtain ⟨pg, h1⟩ := meta_text h
  obtain ⟨g, h2⟩ := normalize_total pg
  exact ⟨g, fromStr_of_BNF ((parseFrom_ok BNF_regular).mpr ⟨pg, h1, h2⟩)⟩

theorem meta_declared : FullyDeclared metaGrammar := by
  have h : ∀ p ∈ metaGrammar.productions, ∀ e ∈ p.rhs, ∀ t ∈ e.terms, t.isNonterminal = true → ∃ q ∈ metaGrammar.productions, q.lhs = t := by
    decide +kernel
  rintro n ⟨lhs, e, ⟨p, hp, _, he⟩, ht⟩
  exact h p hp e he _ ht rfl

theorem meta_choice : ∀ p ∈ metaGrammar.productions, ¬ Barren p := by decide +kernel

theorem meta_starts : Starts metaGrammar nSyntax := ⟨by decide +kernel, _, _, rfl, rfl⟩

/-- C87: in particular everything any of the generating functions returns for this grammar. -/
theorem C87_generated (f : Char → Bool) {s : Str} (h : Generated metaGrammar s) : ∃ g, Grammar.fromStr f s = some (.ok g) := by
  obtain ⟨start, h1, h2⟩ := C34_generated_derivable meta_declared h
  cases h1
  exact C87_sentences f h2

/-- C87: `generate_seeded` does not panic for this grammar, and if it returns, it returns a sentence that `from_str` accepts. -/
theorem C87_seeded {ρ Seed : Type} (R : Rng ρ Seed) (f : Char → Bool) (fuel : Nat) (rng : ρ) :
    (metaGrammar.generateSeeded R fuel rng).1 ≠ .panic ∧
    ∀ r st, (metaGrammar.generateSeeded R fuel rng).1 = .done r st → ∃ s g, r = .ok s ∧ Grammar.fromStr f s = some (.ok g) := by
  refine ⟨(C36_no_panic_builtin R 0 metaGrammar fuel).1 _ _, fun r st h => ?_⟩
  cases r with
  | ok s => obtain ⟨g, hg⟩ := C87_generated f (.seeded (R := R) (rng' := (metaGrammar.generateSeeded R fuel rng).2) (Prod.ext h rfl)); exact ⟨s, g, rfl, hg⟩
  | error e =>
    obtain ⟨w, hw⟩ : ∃ w, Derives metaGrammar (.nonterminal nSyntax) w := by
      obtain ⟨b, h1, h2⟩ := C33_terminates_iff metaGrammar
      rw [meta_starts.1] at h1
      cases h1
      rcases h2.1 rfl with h' | ⟨S, w, h3, h4⟩
      · cases h'
      · cases h3; exact ⟨w, h4⟩
    obtain ⟨m, p, _, ⟨bs, as, hp, _⟩, h3 | ⟨_, h4, st1, a, d, st2, h5⟩⟩ := C36_other_errors randomWalk_faithful (g := metaGrammar) (start := nSyntax) rfl ⟨w, hw⟩ h
    · exact absurd h3.2 (meta_choice p (by rw [hp]; simp))
    · obtain ⟨e, _, h6⟩ := randomWalk_chooses (R := R) st1 a p d h4
      rw [h5] at h6
      cases h6

def metaName : Term → Str
  | .nonterminal x => x
  | .terminal x => x

/-- Weights of the nonterminals for `C79_ends`. -/
def metaWeight (x : Str) : ℚ :=
  if x = nSyntax then 716 else if x = nRule then 179 else if x = nExpression then 124 else if x = nList then 30 else if x = nTerm then 7
  else if x = nLiteral then 6 else if x = nText1 ∨ x = nText2 ∨ x = nRuleName then 4 else if x = nLineEnd then 3
  else if x = nCharacter ∨ x = nCharacter1 ∨ x = nCharacter2 then 2 else 1

/-- C87: with ideal random numbers generation for this grammar ends with probability 1; more exactly, it needs more than `n` nested expansions
with probability at most `716 * (3/4)^n`. -/
theorem C87_ends (n : Nat) :
    ∃ q, HasChance (fun st => metaGrammar.generateSeededWithStrategy (RandomWalk tapeRng) n st) (fun _ => true) q ∧ 1 - (3 / 4) ^ n * 716 ≤ q := by
  have h := C79_ends meta_starts (m := 3 / 4) (by norm_num) (v := metaWeight) (fun x => by unfold metaWeight; split_ifs <;> norm_num) meta_choice
    (by
      intro p hp x hx
      have h : ∀ p ∈ metaGrammar.productions, (p.rhs.map (offspring metaWeight)).sum ≤ 3 / 4 * metaWeight (metaName p.lhs) * p.rhs.length := by
        decide +kernel
      have := h p hp
      rwa [hx] at this) n
  exact h

/-! ## C88 -/

/-- C88: the printed forms of grammars with simple names and terminals are sentences of the grammar for grammars. -/
theorem C88_printed {g : Grammar} (h : SimpleGrammar g) : Derives metaGrammar (.nonterminal nSyntax) g.display :=
  md_syntax h.1 h.2

theorem meta_defined : ∀ n, Referenced metaGrammar n → ∃ e, HasAlt metaGrammar (.nonterminal n) e := by
  intro n hn
  obtain ⟨p, hp, hl⟩ := meta_declared n hn
  have h : ∀ p ∈ metaGrammar.productions, p.rhs ≠ [] := by decide +kernel
  obtain ⟨e, he⟩ := List.exists_mem_of_ne_nil _ (h p hp)
  exact ⟨e, p, hp, hl, he⟩

/-- C88: `build_parser` succeeds for the grammar for grammars, and the first call of `next` for such a printed form returns a tree. -/
theorem C88_recognised {g : Grammar} (h : SimpleGrammar g) {ord : List Str → List Str} (hord : ∀ l, (ord l).Perm l) :
    ∃ p it t it', metaGrammar.buildParser ord = .ok p ∧ p.parseInput g.display = some it ∧ Next it (some t) it' ∧
      IsParse metaGrammar (.nonterminal nSyntax) g.display t := by
  obtain ⟨p, hp⟩ := (C14_build_parser_ok_iff ord hord metaGrammar).2 ⟨by decide, meta_defined⟩
  obtain ⟨it, h3, _⟩ := new_inv (buildParser_ok hp).2 g.display p.startingTerm
  obtain ⟨t, it', h5, h6⟩ := C03_first_call_returns (.parser hp rfl h3) (C88_printed h)
  exact ⟨p, it, t, it', hp, h3, h5, h6⟩

/-- A grammar with the names `s` and `a-1` and the terminals `it's` and `"` is simple. -/
theorem simple_example : SimpleGrammar ⟨[⟨.nonterminal ['s'], [⟨[.nonterminal ['a', '-', '1'], .terminal ['i', 't', '\'', 's']]⟩, ⟨[.terminal ['"']]⟩]⟩,
    ⟨.nonterminal ['a', '-', '1'], [⟨[.terminal []]⟩]⟩]⟩ := by
  have hs : SimpleName ['s'] := ⟨_, _, rfl, by decide, by decide⟩
  have ha : SimpleName ['a', '-', '1'] := ⟨_, _, rfl, by decide, by decide⟩
  have h1 : SimpleTerm (.terminal ['i', 't', '\'', 's']) := .inl ⟨[['i'], ['t'], ['\''], ['s']], rfl, by
    intro p hp
    simp only [List.mem_cons, List.not_mem_nil, or_false] at hp
    rcases hp with rfl | rfl | rfl | rfl <;> exact .inl ⟨_, rfl, by decide⟩⟩
  have h2 : SimpleTerm (.terminal ['"']) := .inr ⟨[['"']], rfl, by
    intro p hp
    simp only [List.mem_cons, List.not_mem_nil, or_false] at hp
    subst hp
    exact .inl ⟨_, rfl, by decide⟩⟩
  have h3 : SimpleTerm (.terminal []) := .inl ⟨[], rfl, by simp⟩
  refine ⟨by simp, ?_⟩
  simp only [List.mem_cons, List.not_mem_nil, or_false, forall_eq_or_imp, forall_eq]
  exact ⟨⟨⟨_, rfl, hs⟩, by simp, ⟨by simp, ha, h1⟩, by simp, h2⟩, ⟨_, rfl, ha⟩, by simp, by simp, h3⟩

example : ∃ g, Grammar.fromStr Char.isAlpha (Grammar.display ⟨[⟨.nonterminal ['s'], [⟨[.nonterminal ['a', '-', '1'], .terminal ['i', 't', '\'', 's']]⟩,
    ⟨[.terminal ['"']]⟩]⟩, ⟨.nonterminal ['a', '-', '1'], [⟨[.terminal []]⟩]⟩]⟩) = some (.ok g) :=
  C87_sentences _ (C88_printed simple_example)

/-- C88: neither the text of this grammar nor its printed form is a sentence of it: the text has comments, and the terminal of `<EOL>` is a line break,
for which there is no `<character>`. -/
theorem C88_not_itself : ¬ Derives metaGrammar (.nonterminal nSyntax) bnfForBnf ∧ ¬ Derives metaGrammar (.nonterminal nSyntax) metaGrammar.display := by
  constructor
  · intro h
    have e : bnfForBnf.head? = some ';' := by decide +kernel
    obtain ⟨⟨v, h | h⟩, _⟩ := meta_lines h <;> (rw [h] at e; simp at e)
  · intro h
    have e : metaGrammar.display = metaGrammar.display.dropLast.dropLast.dropLast ++ '\n' :: ['\'', '\n'] := by decide +kernel
    rcases (meta_lines h).2 _ _ e with h | ⟨v, h | h⟩ <;> simp at h

end Bnf.Props
