import Verif.Proofs.Reprint
import Verif.Props.Text

/-! # Property C108: from one grammar format to the other -/

set_option autoImplicit false

namespace Bnf.Props
open Bnf Spec

/-- C108: a grammar read from a text, in either format, with or without groups and optionals, is read back from its printed
form exactly when no nonterminal in the text contains `>`.  (A BNF text never contains such a name: C21.) -/
theorem C108_reprint_iff {F : Format} (hF : Supported F) {f : Char → Bool} (hf : AlphabeticTable f) {s pg g}
    (ht : GrammarText F pg s) (hg : Grammar.parseFrom F s = some (.ok g)) :
    Grammar.fromStr f g.display = some (.ok g) ↔ ∀ n, UsedIn n pg ∨ DeclaredIn n pg → '>' ∉ n := by
  obtain ⟨pg', h1, h2⟩ := (parseFrom_ok hF.regular).mp hg
  rw [grammarText_unique hF.regular ht h1, grammar_round_trip hf, text_printable_iff h1 h2, names_of_text h2]

/-- C108: what goes wrong otherwise need not be an error.  `a = b>|<c` is an ABNF text with one alternative, the name `b>|<c`.
It is printed as `<a> ::= <b>|<c>`, and that is a text with two alternatives. -/
theorem C108_misread_witness : ∃ g g',
    Grammar.fromStr Char.isAlpha ['a', ' ', '=', ' ', 'b', '>', '|', '<', 'c'] = some (.ok g) ∧
    Grammar.fromStr Char.isAlpha g.display = some (.ok g') ∧
    g = ⟨[⟨.nonterminal ['a'], [⟨[.nonterminal ['b', '>', '|', '<', 'c']]⟩]⟩]⟩ ∧
    g' = ⟨[⟨.nonterminal ['a'], [⟨[.nonterminal ['b']]⟩, ⟨[.nonterminal ['c']]⟩]⟩]⟩ :=
  ⟨_, _, by rfl, by rfl, rfl, rfl⟩

/-- C108: the grammars that some ABNF text without groups and optionals denotes. -/
theorem C108_writable_iff {f : Char → Bool} (g : Grammar) (hl : ∀ p ∈ g.productions, ∃ u, p.lhs = .nonterminal u) :
    (∃ s, GrammarText (ABNF f) (toParsed g.productions) s) ↔ WritableGrammar f g :=
  ⟨fun ⟨_, h⟩ => writable_of_text hl h, fun h => ⟨_, abnf_grammar h⟩⟩

/-- C108: such a text, one line `name = term term / term` for each production, is read as the grammar, with the format given
or detected. -/
theorem C108_written {f : Char → Bool} (hf : AlphabeticTable f) {g : Grammar} (h : WritableGrammar f g) :
    Grammar.parseFrom (ABNF f) (abnfText g) = some (.ok g) ∧ Grammar.fromStr f (abnfText g) = some (.ok g) := by
  have hl : ∀ p ∈ g.productions, ∃ u, p.lhs = .nonterminal u := fun p hp => (h.2 p hp).1.imp fun _ h => h.1
  have := (parseFrom_ok (ABNF_regular hf)).mpr ⟨_, abnf_grammar h, normalize_plain hl⟩
  exact ⟨this, fromStr_of_ABNF hf this⟩

/-- C108: a BNF text can be rewritten as an ABNF text of the same grammar as soon as its names allow; reading the ABNF
text and reading the printed BNF text give the same grammar. -/
theorem C108_there_and_back {f : Char → Bool} (hf : AlphabeticTable f) {s g} (hg : Grammar.parseFrom BNF s = some (.ok g))
    (hn : ∀ n, NameOf g n → PlainName f n) :
    Grammar.fromStr f (abnfText g) = some (.ok g) ∧ Grammar.fromStr f g.display = some (.ok g) := by
  obtain ⟨pg, h1, h2⟩ := (parseFrom_ok BNF_regular).mp hg
  have hp := text_printable h1 h2
  have hw : WritableGrammar f g := by
    refine ⟨hp.1, fun p hm => ?_⟩
    obtain ⟨⟨u, hu, _⟩, hr, he⟩ := hp.2 p hm
    refine ⟨⟨u, hu, hn u ⟨p, hm, .inl hu⟩⟩, hr, fun e hm' => ⟨(he e hm').1, fun t ht => ?_⟩⟩
    cases t with
    | terminal v => exact (he e hm').2 _ ht
    | nonterminal v => exact hn v ⟨p, hm, .inr ⟨e, hm', ht⟩⟩
  exact ⟨(C108_written hf hw).2, (grammar_round_trip hf g).mpr hp⟩

/-- C108: the names that the reader generates for groups and optionals cannot be written in ABNF. -/
theorem C108_generated_names {f : Char → Bool} (hf : AlphabeticTable f) (k : Nat) : ¬ PlainName f (anonName k) := by
  rintro ⟨⟨c, cs, h, hc⟩, _⟩
  have h : '_' = c := by
    unfold anonName at h
    exact (List.cons.inj h).1
  rw [← h, hf.ascii '_' (by decide)] at hc
  exact absurd hc (by decide)

/-! ### Cases -/

/-- `s = 'x' t / t` and `t = "y'"`. -/
def gWritten : Grammar := ⟨[⟨.nonterminal ['s'], [⟨[.terminal ['x'], .nonterminal ['t']]⟩, ⟨[.nonterminal ['t']]⟩]⟩,
  ⟨.nonterminal ['t'], [⟨[.terminal ['y', '\'']]⟩]⟩]⟩

theorem plain_s : PlainName Char.isAlpha ['s'] :=
  ⟨⟨'s', [], rfl, by decide⟩, by
    intro c hc
    rcases List.mem_singleton.mp hc with rfl
    unfold NameStop
    decide⟩

theorem plain_t : PlainName Char.isAlpha ['t'] :=
  ⟨⟨'t', [], rfl, by decide⟩, by
    intro c hc
    rcases List.mem_singleton.mp hc with rfl
    unfold NameStop
    decide⟩

theorem gWritten_writable : WritableGrammar Char.isAlpha gWritten := by
  refine ⟨by simp [gWritten], ?_⟩
  intro p hp
  simp only [gWritten, List.mem_cons, List.not_mem_nil, or_false] at hp
  rcases hp with rfl | rfl
  · refine ⟨⟨_, rfl, plain_s⟩, by simp, ?_⟩
    intro e he
    simp only [List.mem_cons, List.not_mem_nil, or_false] at he
    rcases he with rfl | rfl
    · refine ⟨by simp, fun t ht => ?_⟩
      simp only [List.mem_cons, List.not_mem_nil, or_false] at ht
      rcases ht with rfl | rfl
      · exact .inl (by decide)
      · exact plain_t
    · refine ⟨by simp, fun t ht => ?_⟩
      rcases List.mem_singleton.mp ht with rfl
      exact plain_t
  · refine ⟨⟨_, rfl, plain_t⟩, by simp, ?_⟩
    intro e he
    rcases List.mem_singleton.mp he with rfl
    refine ⟨by simp, fun t ht => ?_⟩
    rcases List.mem_singleton.mp ht with rfl
    exact .inl (by decide)

example : abnfText gWritten = "s = 'x' t / t\nt = \"y'\"\n".toList := by decide +kernel

example : Grammar.fromStr Char.isAlpha (abnfText gWritten) = some (.ok gWritten) :=
  (C108_written table_example gWritten_writable).2

example : ∃ s, GrammarText (ABNF Char.isAlpha) (toParsed gWritten.productions) s :=
  (C108_writable_iff gWritten (by
    intro p hp
    simp only [gWritten, List.mem_cons, List.not_mem_nil, or_false] at hp
    rcases hp with rfl | rfl <;> exact ⟨_, rfl⟩)).mpr gWritten_writable

/-- The hypotheses of `C108_there_and_back` hold for `<s> ::= 'x' <t> | <t>` and `<t> ::= "y'"`. -/
example : Grammar.parseFrom BNF gWritten.display = some (.ok gWritten) ∧ ∀ n, NameOf gWritten n → PlainName Char.isAlpha n := by
  refine ⟨by rfl, ?_⟩
  rintro n ⟨p, hp, h⟩
  obtain ⟨⟨u, hu, hpl⟩, _, hw⟩ := gWritten_writable.2 p hp
  rcases h with h | ⟨e, he, ht⟩
  · rw [h] at hu
    injection hu with hu
    exact hu ▸ hpl
  · exact (hw e he).2 _ ht

/-- The names in `a>b = 'x'`. -/
example : ∃ pg g, GrammarText (ABNF Char.isAlpha) pg ['a', '>', 'b', ' ', '=', ' ', '\'', 'x', '\''] ∧
    Grammar.parseFrom (ABNF Char.isAlpha) ['a', '>', 'b', ' ', '=', ' ', '\'', 'x', '\''] = some (.ok g) ∧
    DeclaredIn ['a', '>', 'b'] pg ∧ Grammar.fromStr Char.isAlpha g.display ≠ some (.ok g) := by
  obtain ⟨g, hg, he⟩ := C21_abnf_witness
  obtain ⟨pg, h1, h2⟩ := (C23_accepted_texts (.abnf table_example) _ _).mp hg
  refine ⟨pg, g, h1, hg, ?_, by rw [he]; simp⟩
  have hne : ¬ ∀ n, UsedIn n pg ∨ DeclaredIn n pg → '>' ∉ n := fun h => by
    have := (C108_reprint_iff (.abnf table_example) table_example h1 hg).mpr h
    rw [he] at this
    cases this
  have hpg : g = ⟨[⟨.nonterminal ['a', '>', 'b'], [⟨[.terminal ['x']]⟩]⟩]⟩ := by
    have h : Grammar.parseFrom (ABNF Char.isAlpha) ['a', '>', 'b', ' ', '=', ' ', '\'', 'x', '\''] =
      some (.ok ⟨[⟨.nonterminal ['a', '>', 'b'], [⟨[.terminal ['x']]⟩]⟩]⟩) := by rfl
    rw [h] at hg
    injection hg with hg
    injection hg with hg
    exact hg.symm
  obtain ⟨user, anon, h3, h4, _, h5, _⟩ := normalize_spec h2
  rw [hpg] at h3
  cases h4 with
  | nil => exact absurd rfl (grammarText_ne h1)
  | cons hp _ =>
    simp only [List.cons_append, List.cons.injEq] at h3
    have := hp.1
    rw [← h3.1] at this
    injection this with this
    exact ⟨_, List.mem_cons_self .., this.symm⟩

end Bnf.Props
