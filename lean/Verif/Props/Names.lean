import Verif.Proofs.Names
import Verif.Props.EndToEnd

/-! # Property C60: exactly which names normalization takes -/

set_option autoImplicit false

namespace Bnf.Props
open Bnf Spec

/-- C60: the nonterminals with a production in the parsed grammar are those declared in the text and the first `N` of `__anon0`, `__anon1`, …
that the text does not declare, where `N` is the number of groups and optionals. -/
theorem C60_defined_iff {F : Format} (hF : Supported F) {s pg g} (ht : GrammarText F pg s)
    (hg : Grammar.parseFrom F s = some (.ok g)) (x : Str) :
    (∃ p ∈ g.productions, p.lhs = .nonterminal x) ↔ DeclaredIn x pg ∨ Taken pg x := by
  obtain ⟨pg', h1, h2⟩ := (parseFrom_ok hF.regular).mp hg
  rw [grammarText_unique hF.regular ht h1, taken_iff]
  exact normalize_names h2 x

/-- C60: there is one production for each production of the text and one for each group and optional. -/
theorem C60_count {F : Format} (hF : Supported F) {s pg g} (ht : GrammarText F pg s)
    (hg : Grammar.parseFrom F s = some (.ok g)) : g.productions.length = pg.length + brackets pg := by
  obtain ⟨pg', h1, h2⟩ := (parseFrom_ok hF.regular).mp hg
  rw [grammarText_unique hF.regular ht h1]
  exact normalize_count h2

/-- C60: an undeclared nonterminal of the text is captured by a group or optional exactly if it is one of the names taken; this is the exact
extent of the failure of C31. -/
theorem C60_capture_iff {F : Format} (hF : Supported F) {s pg g} (ht : GrammarText F pg s)
    (hg : Grammar.parseFrom F s = some (.ok g)) {x : Str} (hx : ¬ DeclaredIn x pg) :
    (∃ p ∈ g.productions, p.lhs = .nonterminal x) ↔ Taken pg x := by
  rw [C60_defined_iff hF ht hg]; simp [hx]

/-- C60: `build_parser()` succeeds on a parsed text exactly if every nonterminal used in the text is declared in it or is one of the names
taken (without the exception of `C55_builds_iff`). -/
theorem C60_builds_iff {F : Format} (hF : Supported F) {s pg g} (ht : GrammarText F pg s)
    (hg : Grammar.parseFrom F s = some (.ok g)) (ord : List Str → List Str) (hord : ∀ l, (ord l).Perm l) :
    (∃ p, g.buildParser ord = .ok p) ↔ ∀ n, UsedIn n pg → DeclaredIn n pg ∨ Taken pg n := by
  obtain ⟨pg', h1, h2⟩ := (parseFrom_ok hF.regular).mp hg
  rw [grammarText_unique hF.regular ht h1] at *
  rw [C14_build_parser_ok_iff ord hord]
  constructor
  · rintro ⟨_, h⟩ n hu
    obtain ⟨e, p, hp, hl, he⟩ := h n ((normalize_references h2 n).1 hu)
    exact (C60_defined_iff hF h1 hg n).mp ⟨p, hp, hl⟩
  · intro h
    refine ⟨(C25_well_formed hF hg).1, fun n hr => ?_⟩
    rcases (normalize_references h2 n).2 hr with hu | ⟨_, _, hd⟩
    · obtain ⟨p, hp, hl⟩ := (C60_defined_iff hF h1 hg n).mpr (h n hu)
      obtain ⟨e, he⟩ := List.exists_mem_of_ne_nil _ ((C25_well_formed hF hg).2 p hp).2.1
      exact ⟨e, p, hp, hl, he⟩
    · exact hd

/-- `<a> ::= <__anon0> ('x')` uses the undeclared `__anon0`, which is taken by the group; `__anon1` would not be. -/
example : ∃ pg g, GrammarText BNF pg ['<', 'a', '>', ':', ':', '=', '<', '_', '_', 'a', 'n', 'o', 'n', '0', '>', '(', '\'', 'x', '\'', ')'] ∧
    Grammar.parseFrom BNF ['<', 'a', '>', ':', ':', '=', '<', '_', '_', 'a', 'n', 'o', 'n', '0', '>', '(', '\'', 'x', '\'', ')'] = some (.ok g) ∧
    UsedIn anon0 pg ∧ ¬ DeclaredIn anon0 pg ∧ Taken pg anon0 ∧ ¬ Taken pg anon1 := by
  obtain ⟨pg, g, h1, h2, h3, h4, h5⟩ := C31_capture_witness
  refine ⟨pg, g, h1, h2, h3, h4, (C60_capture_iff .bnf h1 h2 h4).mp h5, fun ht => ?_⟩
  obtain ⟨p, hp, hl⟩ := (C60_defined_iff .bnf h1 h2 anon1).mpr (.inr ht)
  have e : Grammar.parseFrom BNF ['<', 'a', '>', ':', ':', '=', '<', '_', '_', 'a', 'n', 'o', 'n', '0', '>', '(', '\'', 'x', '\'', ')'] =
    some (.ok ⟨[⟨.nonterminal ['a'], [⟨[.nonterminal anon0, .nonterminal anon0]⟩]⟩, ⟨.nonterminal anon0, [⟨[.terminal ['x']]⟩]⟩]⟩) := by rfl
  rw [e] at h2
  simp only [Option.some.injEq, Except.ok.injEq] at h2
  subst h2
  simp only [List.mem_cons, List.not_mem_nil, or_false] at hp
  rcases hp with rfl | rfl <;> revert hl <;> decide

/-- Two groups of which one is inside the other: two brackets. -/
example : brackets [⟨['a'], [[.group [[.simple (.terminal ['x']), .optional [[.simple (.terminal ['y'])]]]]]]⟩] = 2 := by
  simp [brackets, altsBrackets, termsBrackets, ParsedTerm.brackets]

end Bnf.Props
