import Verif.Proofs.Normalized
import Verif.Proofs.Characters
import Verif.Props.Text
import Verif.Chars

/-! # Property C127: what the printed form of a grammar with brackets shows -/

set_option autoImplicit false

namespace Bnf.Props
open Bnf Spec

/-- C127: the printed form has exactly one reading, and that has neither groups nor optionals: it is in normalized form. -/
theorem C127_no_groups {s g} (h : Grammar.parseFrom BNF s = some (.ok g)) :
    ∃ pg', GrammarText BNF pg' g.display ∧ ¬ Bracketed pg' ∧ ∀ pg'', GrammarText BNF pg'' g.display → pg'' = pg' := by
  obtain ⟨pg, h1, h2⟩ := (parseFrom_ok BNF_regular).mp h
  have hd := display_grammar (text_printable h1 h2)
  exact ⟨_, hd, toParsed_not_bracketed _, fun pg'' h' => text_unique BNF_regular h' hd⟩

variable {F : Format} {s : Str} {pg : ParsedGrammar} {g : Grammar}

theorem read_normalized (hF : Supported F) (ht : GrammarText F pg s) (hg : Grammar.parseFrom F s = some (.ok g)) :
    normalizeParsedGrammar pg = some g := by
  obtain ⟨pg0, h1, h2⟩ := (parseFrom_ok hF.regular).mp hg
  rwa [text_unique hF.regular ht h1]

/-- C127: a character that is neither punctuation nor in a generated name is printed exactly if it is in a name or terminal of the text. -/
theorem C127_characters (hF : Supported F) (ht : GrammarText F pg s) (hg : Grammar.parseFrom F s = some (.ok g)) {c : Char}
    (hp : c ∉ punctuation) (ha : ∀ k, c ∉ anonName k) : c ∈ g.display ↔ ∃ u, WordOf pg u ∧ c ∈ u := by
  have hn := read_normalized hF ht hg
  constructor
  · intro h
    rcases mem_display h with h | ⟨t, h, hc⟩
    · exact absurd h hp
    · rcases word_origin hn h with hw | hw | ⟨_, k, rfl⟩
      · exact ⟨_, hw, hc⟩
      · rw [hw] at hc; cases hc
      · exact absurd hc (ha k)
  · rintro ⟨u, hu, hc⟩
    obtain ⟨t, h, rfl⟩ := word_kept hn hu
    exact (infix_display h).subset hc

/-- C127: in particular the brackets of the text are not printed: `(` and `[` are printed exactly if they are in names or terminals. -/
theorem C127_brackets (hF : Supported F) (ht : GrammarText F pg s) (hg : Grammar.parseFrom F s = some (.ok g)) {c : Char}
    (hc : c = '(' ∨ c = ')' ∨ c = '[' ∨ c = ']') : c ∈ g.display ↔ ∃ u, WordOf pg u ∧ c ∈ u := by
  refine C127_characters hF ht hg ?_ ?_
  · rcases hc with rfl | rfl | rfl | rfl <;> decide
  · intro k hk
    have := anonName_mem hk
    rcases hc with rfl | rfl | rfl | rfl <;> revert this <;> decide

/-- C127: every group or optional shows as a generated name. -/
theorem C127_generated (hF : Supported F) (ht : GrammarText F pg s) (hg : Grammar.parseFrom F s = some (.ok g)) (hb : Bracketed pg) :
    ∃ k, anonName k <:+: g.display := by
  obtain ⟨k, h⟩ := bracket_name (read_normalized hF ht hg) hb
  exact ⟨k, infix_display h⟩

/-- C127: and only these do: if no name or terminal of the text contains an underscore, an underscore is printed exactly if there is a group or an optional. -/
theorem C127_underscore (hF : Supported F) (ht : GrammarText F pg s) (hg : Grammar.parseFrom F s = some (.ok g))
    (hu : ∀ u, WordOf pg u → '_' ∉ u) : '_' ∈ g.display ↔ Bracketed pg := by
  have hn := read_normalized hF ht hg
  constructor
  · intro h
    rcases mem_display h with h | ⟨t, h, hc⟩
    · exact absurd h (by decide)
    · rcases word_origin hn h with hw | hw | ⟨hb, _⟩
      · exact absurd hc (hu _ hw)
      · rw [hw] at hc; cases hc
      · exact hb
  · intro hb
    obtain ⟨k, h⟩ := C127_generated hF ht hg hb
    exact h.subset (by simp [anonName])

/-! ## The example in the documentation of `Grammar` -/

/-- `src/grammar.rs` 290-293. -/
def tDoc : Str := chars! "<s> ::= (<a> | <b>) [<c>]\n<a> ::= 'a'\n<b> ::= 'b'\n<c> ::= 'c'"
def pgDoc : ParsedGrammar := [⟨['s'], [[.group [[.simple (.nonterminal ['a'])], [.simple (.nonterminal ['b'])]], .optional [[.simple (.nonterminal ['c'])]]]]⟩,
  ⟨['a'], [[.simple (.terminal ['a'])]]⟩, ⟨['b'], [[.simple (.terminal ['b'])]]⟩, ⟨['c'], [[.simple (.terminal ['c'])]]⟩]

theorem pgDoc_text : GrammarText BNF pgDoc tDoc := parsedGrammarComplete_sound BNF_regular.named (n := 200) (r := []) (by rfl)

theorem pgDoc_bracketed : Bracketed pgDoc :=
  ⟨_, .inl ⟨_, List.mem_cons_self .., .alts (List.mem_cons_self ..) (.terms (List.mem_cons_self ..) .refl)⟩⟩

theorem pgDoc_words {u : Str} (h : WordOf pgDoc u) : u = ['s'] ∨ u = ['a'] ∨ u = ['b'] ∨ u = ['c'] := by
  rcases h with ⟨p, hp, rfl⟩ | ⟨p, hp, hw⟩ | ⟨p, hp, hw⟩ <;> simp only [pgDoc, List.mem_cons, List.not_mem_nil, or_false] at hp
  · rcases hp with rfl | rfl | rfl | rfl <;> simp
  · rcases hp with rfl | rfl | rfl | rfl <;> simp [used_alts, used_group, used_optional, used_nonterminal, used_terminal] at hw
    tauto
  · rcases hp with rfl | rfl | rfl | rfl <;> simp [said_alts, said_group, said_optional, said_nonterminal, said_terminal] at hw <;> tauto

/-- C127: the assertions of the example: the printed form contains `__anon`, and neither `(` nor `[`. -/
theorem C127_doc_example {g} (hg : Grammar.parseFrom BNF tDoc = some (.ok g)) :
    ['_', '_', 'a', 'n', 'o', 'n'] <:+: g.display ∧ '(' ∉ g.display ∧ '[' ∉ g.display := by
  refine ⟨?_, ?_, ?_⟩
  · obtain ⟨k, h⟩ := C127_generated .bnf pgDoc_text hg pgDoc_bracketed
    exact List.IsInfix.trans ⟨[], decimal k, by simp [anonName]⟩ h
  all_goals
    rw [C127_brackets .bnf pgDoc_text hg (by simp)]
    rintro ⟨u, hu, hc⟩
    rcases pgDoc_words hu with rfl | rfl | rfl | rfl <;> revert hc <;> decide

/-- The text is accepted, and what is printed. -/
example : ∃ g, Grammar.parseFrom BNF tDoc = some (.ok g) ∧ g.display =
    chars! "<s> ::= <__anon0> <__anon1>\n<a> ::= 'a'\n<b> ::= 'b'\n<c> ::= 'c'\n<__anon0> ::= <a> | <b>\n<__anon1> ::= <c> | ''\n" :=
  ⟨_, by rfl, by rfl⟩

/-- C127: brackets inside terminals are printed, so the assertions of the example do not hold for all texts. -/
theorem C127_terminal_witness : ∃ g, Grammar.parseFrom BNF (chars! "<s> ::= '('") = some (.ok g) ∧ '(' ∈ g.display :=
  ⟨_, by rfl, by decide⟩

end Bnf.Props
