import Verif.Proofs.ContextFreeEvery
import Verif.Props.Parsing
import Verif.Props.Validation
import Verif.Props.Text

/-! # Property C84: the parser recognises the context-free languages, no more and no less

`ContextFreeGrammar` and `Language.IsContextFree` are Mathlib's: words obtained by rewriting strings of symbols. -/

set_option autoImplicit false

namespace Bnf.Props
open Bnf Spec

/-- C84: the first call of `next()` returns a tree exactly when the input belongs to the language of the context-free grammar whose rules are
the alternatives of the grammar, terminals taken apart into characters. -/
theorem C84_language {g S input it} (ho : Opened g S input it) :
    (∃ t it', Next it (some t) it') ↔ input ∈ (cfg g S).language := by
  rw [← derives_iff_language]
  constructor
  · rintro ⟨t, it', h⟩; exact C05_some_first ho h
  · intro h
    obtain ⟨t, it', h, _⟩ := C03_first_call_returns ho h
    exact ⟨t, it', h⟩

/-- `gExp` and the text "é+y" (see C05). -/
example : ['é', '+', 'y'] ∈ (cfg gExp (.nonterminal ['e'])).language :=
  (C84_language (.deprecatedStarting rfl)).mp ⟨tExp, _, ⟨100, rfl⟩⟩

/-- C84: a set of texts is a context-free language exactly when there is a grammar text from which a parser can be built that decides it: every first
call returns, with a tree for the texts of the set and with `None` for all others. -/
theorem C84_context_free_iff {f : Char → Bool} (hf : AlphabeticTable f) (ord : List Str → List Str) (hord : ∀ l, (ord l).Perm l)
    (L : Language Char) :
    L.IsContextFree ↔
      ∃ text g p, Grammar.fromStr f text = some (.ok g) ∧ g.buildParser ord = .ok p ∧
        ∀ w, ∃ it, p.parseInput w = some it ∧
          (w ∈ L → ∃ t it', Next it (some t) it') ∧ (w ∉ L → ∃ it', Next it none it') := by
  constructor
  · rintro ⟨G, rfl⟩
    have hp := CF.gram_printable (G := G)
    obtain ⟨p, hb⟩ := (C14_build_parser_ok_iff ord hord (CF.gram G)).mpr ⟨hp.1, CF.gram_defined⟩
    refine ⟨(CF.gram G).display, CF.gram G, p, (C20_grammar_round_trip hf _).mpr ⟨hp.1, hp.2⟩, hb, fun w => ?_⟩
    obtain ⟨it, hi, _⟩ := new_inv (buildParser_ok hb).2 w (.nonterminal ['s'])
    have hs : p.startingTerm = .nonterminal ['s'] := by
      have := (buildParser_ok hb).1
      simp only [Grammar.startingTerm, CF.gram, Option.some.injEq] at this
      exact this.symm
    have ho : Opened (CF.gram G) (.nonterminal ['s']) w it := .parserStarting hb hi
    refine ⟨it, ?_, fun h => ?_, fun h => ?_⟩
    · rw [← hi]
      unfold GrammarParser.parseInput
      rw [hs]
      rfl
    · obtain ⟨t, it', h, _⟩ := C03_first_call_returns ho ((CF.gram_language w).mpr h)
      exact ⟨t, it', h⟩
    · obtain ⟨r, it', hn⟩ := C06_every_call_returns CF.gram_acyclic ho .nil
      cases r with
      | none => exact ⟨it', hn⟩
      | some t => exact absurd ((CF.gram_language w).mp (C05_some_first ho hn)) h
  · rintro ⟨text, g, p, hg, hb, h⟩
    obtain ⟨h1, h2⟩ := buildParser_ok hb
    refine ⟨cfg g p.startingTerm, ?_⟩
    ext w
    obtain ⟨it, hi, h3, h4⟩ := h w
    have ho : Opened g p.startingTerm w it := .parserStarting hb hi
    rw [← C84_language ho]
    constructor
    · rintro ⟨t, it', hn⟩
      by_contra hw
      obtain ⟨it'', hn'⟩ := h4 hw
      exact absurd (hn.det hn').1 (by simp)
    · exact h3

/-- The rules of `cfgCyclic`. -/
def cyclicRules : Finset (ContextFreeRule Char Unit) :=
  {⟨(), [.nonterminal ()]⟩, ⟨(), [.nonterminal (), .nonterminal ()]⟩, ⟨(), [.terminal 'a']⟩, ⟨(), []⟩}

/-- A context-free grammar with a cycle and an empty rule: `S → S | S S | a | ε`. -/
def cfgCyclic : ContextFreeGrammar Char where
  NT := Unit
  initial := ()
  rules := cyclicRules

theorem mem_cyclicRules {r} : r ∈ cyclicRules ↔ r = ⟨(), [.nonterminal ()]⟩ ∨ r = ⟨(), [.nonterminal (), .nonterminal ()]⟩ ∨
    r = ⟨(), [.terminal 'a']⟩ ∨ r = ⟨(), []⟩ := by simp [cyclicRules]

theorem cyclicRules_output : ∀ r ∈ cyclicRules, Symbol.terminal 'b' ∉ r.output := by
  intro r hr
  rcases mem_cyclicRules.mp hr with rfl | rfl | rfl | rfl <;> simp

/-- Its language is decided by the parser of some grammar text, although the parser of the corresponding text
(`<s> ::= <s> | <s> <s> | 'a' | ''`) does not return on other texts (C54). -/
example : ∃ text g p, Grammar.fromStr Char.isAlpha text = some (.ok g) ∧ g.buildParser id = .ok p ∧
    ∀ w, ∃ it, p.parseInput w = some it ∧
      (w ∈ cfgCyclic.language → ∃ t it', Next it (some t) it') ∧ (w ∉ cfgCyclic.language → ∃ it', Next it none it') :=
  (C84_context_free_iff table_example id (fun l => .refl l) _).mp ⟨cfgCyclic, rfl⟩
example : ['a'] ∈ cfgCyclic.language := by
  rw [ContextFreeGrammar.mem_language_iff]
  exact .single ⟨⟨(), [.terminal 'a']⟩, mem_cyclicRules.mpr (.inr (.inr (.inl rfl))), .input_output⟩
example : ['b'] ∉ cfgCyclic.language := by
  rw [ContextFreeGrammar.mem_language_iff]
  intro h
  have key : ∀ {u v}, cfgCyclic.Derives u v → Symbol.terminal 'b' ∉ u → Symbol.terminal 'b' ∉ v := by
    intro u v h hu
    induction h with
    | refl => exact hu
    | tail _ h ih =>
      obtain ⟨r, hr, h⟩ := h
      obtain ⟨p, q, rfl, rfl⟩ := h.exists_parts
      have := cyclicRules_output r hr
      simp only [List.mem_append, not_or] at ih ⊢
      exact ⟨⟨ih.1.1, this⟩, ih.2⟩
  exact key h (by simp) (by simp)

end Bnf.Props
