import Verif.Proofs.Characters
import Verif.Props.Pumping
import Verif.Props.Text
import Verif.Chars

/-! # Property C125: nothing in the input is skipped, and the README's account of groups and optionals -/

set_option autoImplicit false

namespace Bnf.Props
open Bnf Spec

/-- C125: an accepted text consists of characters of the terminals of the grammar. -/
theorem C125_characters {g S w it t it'} (ho : Opened g S w it) (hn : Next it (some t) it') :
    ∀ c ∈ w, ∃ p ∈ g.productions, ∃ e ∈ p.rhs, ∃ u, .terminal u ∈ e.terms ∧ c ∈ u :=
  fun c hc => Pump.mem_chars.mp (Pump.derives_chars (C05_some_first ho hn) c hc)

/-- C125: so the parser never skips blanks, line breaks or anything else: with a character that is in no terminal the input has no tree. -/
theorem C125_nothing_skipped {g S w it ts it'} (ho : Opened g S w it) (hd : Draws it ts it') {c : Char} (hc : c ∈ w)
    (hg : ∀ p ∈ g.productions, ∀ e ∈ p.rhs, ∀ u, .terminal u ∈ e.terms → c ∉ u) : ts = [] := by
  cases hd with
  | nil => rfl
  | cons hn _ =>
    obtain ⟨p, hp, e, he, u, hu, hm⟩ := C125_characters ho hn c hc
    exact absurd hm (hg p hp e he u hu)

section
variable {F : Format} {s : Str} {pg : ParsedGrammar} {g : Grammar}

/-- C125: README, "without parentheses": in every text in which `<s> ::= <a> | <b> <c>` is the production of `s`, this means `a`, or `b` and then `c`. -/
theorem C125_without_parentheses (hF : Supported F) (ht : GrammarText F pg s) (hg : Grammar.parseFrom F s = some (.ok g))
    (hyg : ∀ n, UsedIn n pg → DeclaredIn n pg ∨ ∀ k, n ≠ anonName k) {n a b c : Str}
    (hp : ∀ p, p ∈ pg ∧ p.lhs = n ↔ p = ⟨n, [[.simple (.nonterminal a)], [.simple (.nonterminal b), .simple (.nonterminal c)]]⟩)
    (ha : DeclaredIn a pg) (hb : DeclaredIn b pg) (hc : DeclaredIn c pg) (w : Str) :
    Derives g (.nonterminal n) w ↔ Derives g (.nonterminal a) w ∨
      ∃ u v, w = u ++ v ∧ Derives g (.nonterminal b) u ∧ Derives g (.nonterminal c) v := by
  have hn : DeclaredIn n pg := ⟨_, ((hp _).mpr rfl).1, rfl⟩
  simp only [C29_language hF ht hg hyg hn, C29_language hF ht hg hyg ha, C29_language hF ht hg hyg hb, C29_language hF ht hg hyg hc]
  rw [means_name hp]
  simp only [List.mem_cons, List.not_mem_nil, or_false, exists_eq_or_imp, exists_eq_left, means_one, means_terms_cons (ts := _ :: _)]

/-- C125: README, "with parentheses": `<s> ::= (<a> | <b>) <c>` means `a` or `b`, and then `c`. -/
theorem C125_with_parentheses (hF : Supported F) (ht : GrammarText F pg s) (hg : Grammar.parseFrom F s = some (.ok g))
    (hyg : ∀ n, UsedIn n pg → DeclaredIn n pg ∨ ∀ k, n ≠ anonName k) {n a b c : Str}
    (hp : ∀ p, p ∈ pg ∧ p.lhs = n ↔
      p = ⟨n, [[.group [[.simple (.nonterminal a)], [.simple (.nonterminal b)]], .simple (.nonterminal c)]]⟩)
    (ha : DeclaredIn a pg) (hb : DeclaredIn b pg) (hc : DeclaredIn c pg) (w : Str) :
    Derives g (.nonterminal n) w ↔ ∃ u v, w = u ++ v ∧ (Derives g (.nonterminal a) u ∨ Derives g (.nonterminal b) u) ∧
      Derives g (.nonterminal c) v := by
  have hn : DeclaredIn n pg := ⟨_, ((hp _).mpr rfl).1, rfl⟩
  simp only [C29_language hF ht hg hyg hn, C29_language hF ht hg hyg ha, C29_language hF ht hg hyg hb, C29_language hF ht hg hyg hc]
  rw [means_name hp]
  simp only [List.mem_cons, List.not_mem_nil, or_false, exists_eq_or_imp, exists_eq_left, means_one, means_terms_cons (ts := _ :: _), means_group]

/-- C125: README, optionals: `<word> ::= <letter> [<digit>]` means a letter, or a letter and then a digit. -/
theorem C125_optional (hF : Supported F) (ht : GrammarText F pg s) (hg : Grammar.parseFrom F s = some (.ok g))
    (hyg : ∀ n, UsedIn n pg → DeclaredIn n pg ∨ ∀ k, n ≠ anonName k) {n a b : Str}
    (hp : ∀ p, p ∈ pg ∧ p.lhs = n ↔ p = ⟨n, [[.simple (.nonterminal a), .optional [[.simple (.nonterminal b)]]]]⟩)
    (ha : DeclaredIn a pg) (hb : DeclaredIn b pg) (w : Str) :
    Derives g (.nonterminal n) w ↔ Derives g (.nonterminal a) w ∨
      ∃ u v, w = u ++ v ∧ Derives g (.nonterminal a) u ∧ Derives g (.nonterminal b) v := by
  have hn : DeclaredIn n pg := ⟨_, ((hp _).mpr rfl).1, rfl⟩
  simp only [C29_language hF ht hg hyg hn, C29_language hF ht hg hyg ha, C29_language hF ht hg hyg hb]
  rw [means_name hp]
  simp only [List.mem_cons, List.not_mem_nil, or_false, exists_eq_left, means_one, means_terms_cons (ts := _ :: _), means_optional]
  constructor
  · rintro ⟨u, v, rfl, h1, rfl | h2⟩
    · left; simpa using h1
    · exact .inr ⟨u, v, rfl, h1, h2⟩
  · rintro (h | ⟨u, v, rfl, h1, h2⟩)
    · exact ⟨w, [], by simp, h, .inl rfl⟩
    · exact ⟨u, v, rfl, h1, .inr h2⟩
/-- C125: README, "equivalent long form": so does `<word> ::= <letter> <opt-digit>` with `<opt-digit> ::= <digit> | ""`. -/
theorem C125_long_form (hF : Supported F) (ht : GrammarText F pg s) (hg : Grammar.parseFrom F s = some (.ok g))
    (hyg : ∀ n, UsedIn n pg → DeclaredIn n pg ∨ ∀ k, n ≠ anonName k) {n m a b : Str}
    (hp : ∀ p, p ∈ pg ∧ p.lhs = n ↔ p = ⟨n, [[.simple (.nonterminal a), .simple (.nonterminal m)]]⟩)
    (hm : ∀ p, p ∈ pg ∧ p.lhs = m ↔ p = ⟨m, [[.simple (.nonterminal b)], [.simple (.terminal [])]]⟩)
    (ha : DeclaredIn a pg) (hb : DeclaredIn b pg) (w : Str) :
    Derives g (.nonterminal n) w ↔ Derives g (.nonterminal a) w ∨
      ∃ u v, w = u ++ v ∧ Derives g (.nonterminal a) u ∧ Derives g (.nonterminal b) v := by
  have hn : DeclaredIn n pg := ⟨_, ((hp _).mpr rfl).1, rfl⟩
  simp only [C29_language hF ht hg hyg hn, C29_language hF ht hg hyg ha, C29_language hF ht hg hyg hb]
  rw [means_name hp]
  simp only [List.mem_cons, List.not_mem_nil, or_false, exists_eq_left, means_one, means_terms_cons (ts := _ :: _), means_name hm,
    exists_eq_or_imp, means_terminal]
  constructor
  · rintro ⟨u, v, rfl, h1, h2 | rfl⟩
    · exact .inr ⟨u, v, rfl, h1, h2⟩
    · left; simpa using h1
  · rintro (h | ⟨u, v, rfl, h1, h2⟩)
    · exact ⟨w, [], by simp, h, .inr rfl⟩
    · exact ⟨u, v, rfl, h1, .inl h2⟩

/-- `<a> ::= 'a'` means the text "a" alone. -/
theorem C125_one_terminal (hF : Supported F) (ht : GrammarText F pg s) (hg : Grammar.parseFrom F s = some (.ok g))
    (hyg : ∀ n, UsedIn n pg → DeclaredIn n pg ∨ ∀ k, n ≠ anonName k) {n u : Str}
    (hp : ∀ p, p ∈ pg ∧ p.lhs = n ↔ p = ⟨n, [[.simple (.terminal u)]]⟩) (w : Str) : Derives g (.nonterminal n) w ↔ w = u := by
  have hn : DeclaredIn n pg := ⟨_, ((hp _).mpr rfl).1, rfl⟩
  rw [C29_language hF ht hg hyg hn, means_name hp]
  simp only [List.mem_cons, List.not_mem_nil, or_false, exists_eq_left, means_one, means_terminal]
end

/-! ## The grammars of the README -/

/-- The README's rules, with `<a> ::= 'a'`, `<b> ::= 'b'` and `<c> ::= 'c'`. -/
def pgLoose : ParsedGrammar := [⟨['s'], [[.simple (.nonterminal ['a'])], [.simple (.nonterminal ['b']), .simple (.nonterminal ['c'])]]⟩,
  ⟨['a'], [[.simple (.terminal ['a'])]]⟩, ⟨['b'], [[.simple (.terminal ['b'])]]⟩, ⟨['c'], [[.simple (.terminal ['c'])]]⟩]
def tLoose : Str := chars! "<s> ::= <a> | <b> <c>\n<a> ::= 'a'\n<b> ::= 'b'\n<c> ::= 'c'"
def pgTight : ParsedGrammar := [⟨['s'], [[.group [[.simple (.nonterminal ['a'])], [.simple (.nonterminal ['b'])]], .simple (.nonterminal ['c'])]]⟩,
  ⟨['a'], [[.simple (.terminal ['a'])]]⟩, ⟨['b'], [[.simple (.terminal ['b'])]]⟩, ⟨['c'], [[.simple (.terminal ['c'])]]⟩]
def tTight : Str := chars! "<s> ::= (<a> | <b>) <c>\n<a> ::= 'a'\n<b> ::= 'b'\n<c> ::= 'c'"
def pgWord : ParsedGrammar := [⟨['w'], [[.simple (.nonterminal ['l']), .optional [[.simple (.nonterminal ['d'])]]]]⟩,
  ⟨['l'], [[.simple (.terminal ['x'])]]⟩, ⟨['d'], [[.simple (.terminal ['1'])]]⟩]
def tWord : Str := chars! "<w> ::= <l> [<d>]\n<l> ::= 'x'\n<d> ::= '1'"
def pgLong : ParsedGrammar := [⟨['w'], [[.simple (.nonterminal ['l']), .simple (.nonterminal ['o'])]]⟩,
  ⟨['o'], [[.simple (.nonterminal ['d'])], [.simple (.terminal [])]]⟩,
  ⟨['l'], [[.simple (.terminal ['x'])]]⟩, ⟨['d'], [[.simple (.terminal ['1'])]]⟩]
def tLong : Str := chars! "<w> ::= <l> <o>\n<o> ::= <d> | \"\"\n<l> ::= 'x'\n<d> ::= '1'"

theorem loose_used : ∀ n, UsedIn n pgLoose → DeclaredIn n pgLoose ∨ ∀ k, n ≠ anonName k := by
  rintro n ⟨p, hp, hw⟩
  left
  simp only [pgLoose, List.mem_cons, List.not_mem_nil, or_false] at hp
  rcases hp with rfl | rfl | rfl | rfl <;>
    simp [used_alts, used_group, used_optional, used_nonterminal, used_terminal] at hw <;>
    rcases hw with rfl | rfl | rfl <;> simp [DeclaredIn, pgLoose]

theorem tight_used : ∀ n, UsedIn n pgTight → DeclaredIn n pgTight ∨ ∀ k, n ≠ anonName k := by
  rintro n ⟨p, hp, hw⟩
  left
  simp only [pgTight, List.mem_cons, List.not_mem_nil, or_false] at hp
  rcases hp with rfl | rfl | rfl | rfl <;>
    simp [used_alts, used_group, used_optional, used_nonterminal, used_terminal] at hw <;>
    rcases hw with (rfl | rfl) | rfl <;> simp [DeclaredIn, pgTight]

theorem word_used : ∀ n, UsedIn n pgWord → DeclaredIn n pgWord ∨ ∀ k, n ≠ anonName k := by
  rintro n ⟨p, hp, hw⟩
  left
  simp only [pgWord, List.mem_cons, List.not_mem_nil, or_false] at hp
  rcases hp with rfl | rfl | rfl <;>
    simp [used_alts, used_group, used_optional, used_nonterminal, used_terminal] at hw <;>
    rcases hw with rfl | rfl <;> simp [DeclaredIn, pgWord]

theorem long_used : ∀ n, UsedIn n pgLong → DeclaredIn n pgLong ∨ ∀ k, n ≠ anonName k := by
  rintro n ⟨p, hp, hw⟩
  left
  simp only [pgLong, List.mem_cons, List.not_mem_nil, or_false] at hp
  rcases hp with rfl | rfl | rfl | rfl <;>
    simp [used_alts, used_group, used_optional, used_nonterminal, used_terminal] at hw
  · rcases hw with rfl | rfl <;> simp [DeclaredIn, pgLong]
  · subst hw; simp [DeclaredIn, pgLong]

/-- C125: the README's rule without parentheses matches "a" and "bc" and nothing else; in particular neither "ac" nor, whatever the README says, "b c". -/
theorem C125_readme_loose {g} (hg : Grammar.parseFrom BNF tLoose = some (.ok g)) (w : Str) :
    Derives g (.nonterminal ['s']) w ↔ w = ['a'] ∨ w = ['b', 'c'] := by
  have ht : GrammarText BNF pgLoose tLoose := parsedGrammarComplete_sound BNF_regular.named (n := 200) (r := []) (by rfl)
  rw [C125_without_parentheses .bnf ht hg loose_used (n := ['s']) (a := ['a']) (b := ['b']) (c := ['c']) (only_production (by rfl))
    (by simp [DeclaredIn, pgLoose]) (by simp [DeclaredIn, pgLoose]) (by simp [DeclaredIn, pgLoose])]
  simp only [C125_one_terminal .bnf ht hg loose_used (n := ['a']) (u := ['a']) (only_production (by rfl)),
    C125_one_terminal .bnf ht hg loose_used (n := ['b']) (u := ['b']) (only_production (by rfl)),
    C125_one_terminal .bnf ht hg loose_used (n := ['c']) (u := ['c']) (only_production (by rfl))]
  simp

/-- C125: with parentheses it matches "ac" and "bc" and nothing else. -/
theorem C125_readme_tight {g} (hg : Grammar.parseFrom BNF tTight = some (.ok g)) (w : Str) :
    Derives g (.nonterminal ['s']) w ↔ w = ['a', 'c'] ∨ w = ['b', 'c'] := by
  have ht : GrammarText BNF pgTight tTight := parsedGrammarComplete_sound BNF_regular.named (n := 200) (r := []) (by rfl)
  rw [C125_with_parentheses .bnf ht hg tight_used (n := ['s']) (a := ['a']) (b := ['b']) (c := ['c']) (only_production (by rfl))
    (by simp [DeclaredIn, pgTight]) (by simp [DeclaredIn, pgTight]) (by simp [DeclaredIn, pgTight])]
  simp only [C125_one_terminal .bnf ht hg tight_used (n := ['a']) (u := ['a']) (only_production (by rfl)),
    C125_one_terminal .bnf ht hg tight_used (n := ['b']) (u := ['b']) (only_production (by rfl)),
    C125_one_terminal .bnf ht hg tight_used (n := ['c']) (u := ['c']) (only_production (by rfl))]
  constructor
  · rintro ⟨u, v, rfl, rfl | rfl, rfl⟩ <;> simp
  · rintro (rfl | rfl)
    · exact ⟨['a'], ['c'], rfl, .inl rfl, rfl⟩
    · exact ⟨['b'], ['c'], rfl, .inr rfl, rfl⟩

/-- C125: the README's optional, and its long form, match "x" and "x1" and nothing else. -/
theorem C125_readme_word {g g'} (hg : Grammar.parseFrom BNF tWord = some (.ok g)) (hg' : Grammar.parseFrom BNF tLong = some (.ok g')) (w : Str) :
    (Derives g (.nonterminal ['w']) w ↔ w = ['x'] ∨ w = ['x', '1']) ∧ (Derives g' (.nonterminal ['w']) w ↔ w = ['x'] ∨ w = ['x', '1']) := by
  constructor
  · have ht : GrammarText BNF pgWord tWord := parsedGrammarComplete_sound BNF_regular.named (n := 200) (r := []) (by rfl)
    rw [C125_optional .bnf ht hg word_used (n := ['w']) (a := ['l']) (b := ['d']) (only_production (by rfl))
      (by simp [DeclaredIn, pgWord]) (by simp [DeclaredIn, pgWord])]
    simp only [C125_one_terminal .bnf ht hg word_used (n := ['l']) (u := ['x']) (only_production (by rfl)),
      C125_one_terminal .bnf ht hg word_used (n := ['d']) (u := ['1']) (only_production (by rfl))]
    simp
  · have ht : GrammarText BNF pgLong tLong := parsedGrammarComplete_sound BNF_regular.named (n := 200) (r := []) (by rfl)
    rw [C125_long_form .bnf ht hg' long_used (n := ['w']) (m := ['o']) (a := ['l']) (b := ['d']) (only_production (by rfl)) (only_production (by rfl))
      (by simp [DeclaredIn, pgLong]) (by simp [DeclaredIn, pgLong])]
    simp only [C125_one_terminal .bnf ht hg' long_used (n := ['l']) (u := ['x']) (only_production (by rfl)),
      C125_one_terminal .bnf ht hg' long_used (n := ['d']) (u := ['1']) (only_production (by rfl))]
    simp

/-- The texts are accepted. -/
example : (∃ g, Grammar.parseFrom BNF tLoose = some (.ok g)) ∧ (∃ g, Grammar.parseFrom BNF tTight = some (.ok g)) ∧
    (∃ g, Grammar.parseFrom BNF tWord = some (.ok g)) ∧ (∃ g, Grammar.parseFrom BNF tLong = some (.ok g)) :=
  ⟨⟨_, by rfl⟩, ⟨_, by rfl⟩, ⟨_, by rfl⟩, ⟨_, by rfl⟩⟩

/-- C125: the inputs the README quotes, "b c" and "a c", taken literally have no tree, with and without parentheses. -/
theorem C125_readme_blank {g} (hg : Grammar.parseFrom BNF tLoose = some (.ok g) ∨ Grammar.parseFrom BNF tTight = some (.ok g)) {S it ts it'}
    {w : Str} (hw : ' ' ∈ w) (ho : Opened g S w it) (hd : Draws it ts it') : ts = [] := by
  refine C125_nothing_skipped ho hd hw ?_
  have h1 : ∃ g, Grammar.parseFrom BNF tLoose = some (.ok g) ∧ ∀ p ∈ g.productions, ∀ e ∈ p.rhs, ∀ u, .terminal u ∈ e.terms → ' ' ∉ u :=
    ⟨_, by rfl, by simp⟩
  have h2 : ∃ g, Grammar.parseFrom BNF tTight = some (.ok g) ∧ ∀ p ∈ g.productions, ∀ e ∈ p.rhs, ∀ u, .terminal u ∈ e.terms → ' ' ∉ u :=
    ⟨_, by rfl, by simp⟩
  rcases hg with hg | hg
  · obtain ⟨g1, h, h'⟩ := h1
    rw [hg] at h; cases h; exact h'
  · obtain ⟨g1, h, h'⟩ := h2
    rw [hg] at h; cases h; exact h'

end Bnf.Props
