import Verif.Proofs.ParsableInputs
import Verif.Props.PropertyTests
import Verif.Props.Generate

/-! # Property C96: the property tests of `tests/parse_input.rs` on generated sentences -/

set_option autoImplicit false

namespace Bnf.Props
open Bnf Spec

/-- C96: the three grammars of the tests are what their texts say. -/
theorem C96_grammars (f : Char → Bool) : Grammar.fromStr f textAbc = some (.ok gramAbc) ∧ Grammar.fromStr f textAb = some (.ok gramAb) ∧
    Grammar.fromStr f textList = some (.ok gramList) :=
  ⟨fromStr_of_BNF (by decide +kernel), fromStr_of_BNF (by decide +kernel), fromStr_of_BNF (by decide +kernel)⟩

theorem tests_pass_iff {g : Grammar} (hac : Acyclic g) {S : Term} (hS : g.startingTerm = some S) (hd : ∀ n, Referenced g n → Defined g n)
    (ord : List Str → List Str) (hord : ∀ l, (ord l).Perm l) (input : Str) :
    (TerminalsTest ord g input ↔ Derives g S input) ∧ ParityTest ord g input := by
  have hne : g.productions ≠ [] := by intro h0; simp [Grammar.startingTerm, h0] at hS
  obtain ⟨p, hb⟩ := (C14_build_parser_ok_iff ord hord g).mpr ⟨hne, hd⟩
  cases hi : p.parseInput input with
  | none => exact absurd hi (C11_open_no_panic hb input S).2
  | some it =>
    have ho : Opened g S input it := .parser hb hS hi
    obtain ⟨ts, it1, it2, h1, h2⟩ := C06_terminates_acyclic hac ho
    refine ⟨⟨?_, ?_⟩, p, it, it, ts, hb, by rw [(C10_deprecated_agree hb input).1, hi], ⟨it1, it2, h1, h2⟩, hi, it1, it2, h1, h2⟩
    · rintro ⟨p', it', ts', hb', hi', ⟨_, _, hd', _⟩, hne', _⟩
      obtain ⟨t, us, rfl⟩ := List.exists_cons_of_ne_nil hne'
      exact ⟨t, C01_soundness (.parser hb' hS hi') hd' t (by simp)⟩
    · rintro ⟨t, ht⟩
      have := (C05_exhausted_exact ho h1 h2 t).mpr ht
      exact ⟨p, it, ts, hb, hi, ⟨it1, it2, h1, h2⟩, List.ne_nil_of_mem this, C02_trees_spell_input ho h1⟩

/-- C96: `parse_prop_terminals_equal_input` (`tests/parse_input.rs` 817) passes for a generated sentence exactly when it was not cut, that is,
when it has at most 50 bytes; `parse_prop_build_parser_parity` (838) always passes.  Cutting does not panic. -/
theorem C96_passes_iff {g : Grammar} (hg : g ∈ terminatingGrammars) {s : Str} (h : Generated g s)
    (ord : List Str → List Str) (hord : ∀ l, (ord l).Perm l) :
    ∃ input, truncated s = some input ∧ (TerminalsTest ord g input ↔ byteLen s ≤ 50) ∧ ParityTest ord g input := by
  simp only [terminatingGrammars, List.mem_cons, List.not_mem_nil, or_false] at hg
  have hdec : FullyDeclared g := by
    rcases hg with rfl | rfl | rfl <;> rintro n ⟨l, e, ha, hn⟩
    · obtain ⟨_, c, rfl, _⟩ := abc_alt ha
      simp at hn
    · obtain ⟨_, rfl | rfl⟩ := ab_alt ha <;> simp at hn
      subst hn
      exact ⟨_, List.mem_singleton.2 rfl, rfl⟩
    · rcases list_alt ha with ⟨_, rfl | rfl⟩ | ⟨_, c, rfl, _⟩ <;> simp at hn
      · subst hn; exact ⟨_, List.mem_cons_of_mem _ (List.mem_singleton.2 rfl), rfl⟩
      · rcases hn with rfl | rfl
        · exact ⟨_, List.mem_cons_of_mem _ (List.mem_singleton.2 rfl), rfl⟩
        · exact ⟨_, List.mem_cons_self, rfl⟩
  have hdef : ∀ n, Referenced g n → Defined g n := by
    intro n hn
    obtain ⟨p, hp, hl⟩ := hdec n hn
    have : ∃ e, e ∈ p.rhs := by
      rcases hg with rfl | rfl | rfl
      · simp only [gramAbc, List.mem_singleton] at hp; subst hp; exact ⟨_, List.mem_cons_self⟩
      · simp only [gramAb, List.mem_singleton] at hp; subst hp; exact ⟨_, List.mem_cons_self⟩
      · simp only [gramList, List.mem_cons, List.not_mem_nil, or_false] at hp
        rcases hp with rfl | rfl <;> exact ⟨_, List.mem_cons_self⟩
    obtain ⟨e, he⟩ := this
    exact ⟨e, p, hp, hl, he⟩
  obtain ⟨S, hS, hder⟩ := C34_generated_derivable hdec h
  have hac : Acyclic g := by rcases hg with rfl | rfl | rfl; exacts [abc_acyclic, ab_acyclic, list_acyclic]
  by_cases hlen : byteLen s ≤ 50
  · refine ⟨s, by unfold truncated; rw [if_neg (by omega)], ?_⟩
    obtain ⟨h1, h2⟩ := tests_pass_iff hac hS hdef ord hord s
    exact ⟨⟨fun _ => hlen, fun _ => h1.mpr hder⟩, h2⟩
  · have hascii : ∀ c ∈ s, c.utf8Size = 1 := by
      rcases hg with rfl | rfl | rfl
      · simp [Grammar.startingTerm, gramAbc] at hS; subst hS; exact (abc_sentence hder).2
      · simp [Grammar.startingTerm, gramAb] at hS; subst hS
        obtain ⟨k, rfl⟩ := ab_sentence hder
        intro c hc
        simp only [List.mem_append, List.mem_replicate] at hc
        rcases hc with ⟨_, rfl⟩ | ⟨_, rfl⟩ <;> rfl
      · simp [Grammar.startingTerm, gramList] at hS; subst hS; exact (list_sentence hder).2
    have hl := byteLen_ascii hascii
    refine ⟨s.take 50, by unfold truncated; rw [if_pos (by omega), getTo_ascii hascii (by omega)], ?_⟩
    obtain ⟨h1, h2⟩ := tests_pass_iff hac hS hdef ord hord (s.take 50)
    refine ⟨h1.trans ⟨fun hd => ?_, fun h => absurd h hlen⟩, h2⟩
    exfalso
    rcases hg with rfl | rfl | rfl
    · simp [Grammar.startingTerm, gramAbc] at hS; subst hS
      have := (abc_sentence hder).1; omega
    · simp [Grammar.startingTerm, gramAb] at hS; subst hS
      obtain ⟨k, rfl⟩ := ab_sentence hder
      exact ab_cut (by rw [hl, List.length_append, List.length_replicate, List.length_replicate] at hlen; omega) hd
    · simp [Grammar.startingTerm, gramList] at hS; subst hS
      have := (list_sentence hd).1
      rw [List.length_take] at this
      omega

/-- The sentence `a…ab…b` with `k + 1` letters each. -/
theorem ab_derives : ∀ k : Nat, Derives gramAb (.nonterminal ['a', 'b']) (List.replicate (k + 1) 'a' ++ List.replicate (k + 1) 'b')
  | 0 => ⟨⟨_, [.terminal ['a'], .terminal ['b']]⟩, rfl, ⟨_, ⟨_, List.mem_singleton.2 rfl, rfl, List.mem_cons_self⟩, .terminal (.terminal .nil)⟩, rfl⟩
  | k + 1 => by
    obtain ⟨⟨l, r⟩, hr, ⟨e, ha, hf⟩, hy⟩ := ab_derives k
    simp at hr hy; subst hr
    refine ⟨⟨_, [.terminal ['a'], .nonterminal (.nonterminal ['a', 'b']) r, .terminal ['b']]⟩, rfl,
      ⟨_, ⟨_, List.mem_singleton.2 rfl, rfl, List.mem_cons_of_mem _ List.mem_cons_self⟩, .terminal (.nonterminal ha hf (.terminal .nil))⟩, ?_⟩
    simp only [yield, nodeYield, hy]
    rw [List.replicate_succ (n := k + 1), List.replicate_succ' (n := k + 1) (a := 'b')]
    simp

/-- C96: so the test is wrong: some generated sentence (26 times "a", 26 times "b") makes it fail. -/
theorem C96_cut_witness (ord : List Str → List Str) (hord : ∀ l, (ord l).Perm l) :
    ∃ g ∈ terminatingGrammars, ∃ s input, Generated g s ∧ truncated s = some input ∧ ¬ TerminalsTest ord g input := by
  obtain ⟨seed, fuel, st, h⟩ := C51_every_sentence_generated (g := gramAb) (by decide)
    (by simp [gramAb]) (start := ['a', 'b']) rfl (ab_derives 25)
  have hgen : Generated gramAb _ := .plain h
  obtain ⟨input, h1, h2, _⟩ := C96_passes_iff (g := gramAb) (by simp [terminatingGrammars]) hgen ord hord
  refine ⟨gramAb, by simp [terminatingGrammars], _, input, hgen, h1, fun ht => ?_⟩
  have := h2.mp ht
  revert this
  decide

/-- C96: and sentences of every even length are generated, short ones too. -/
theorem C96_all_lengths (k : Nat) : ∃ s, Generated gramAb s ∧ byteLen s = 2 * (k + 1) := by
  obtain ⟨seed, fuel, st, h⟩ := C51_every_sentence_generated (g := gramAb) (by decide)
    (by simp [gramAb]) (start := ['a', 'b']) rfl (ab_derives k)
  refine ⟨_, .plain h, ?_⟩
  rw [byteLen_ascii]
  · simp; omega
  · intro c hc
    simp only [List.mem_append, List.mem_replicate] at hc
    rcases hc with ⟨_, rfl⟩ | ⟨_, rfl⟩ <;> rfl

end Bnf.Props
