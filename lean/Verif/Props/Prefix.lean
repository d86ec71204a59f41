import Verif.Proofs.Prefix
import Verif.Props.Counted
import Verif.Props.TestGrammars

/-! # Property C130: grammars in which no text of a nonterminal is the beginning of another are parsed in linearly many rounds -/

set_option autoImplicit false

namespace Bnf.Props
open Bnf Spec Samples

/-- C130: if no text of a term begins another text of it and none has two trees, then every text is parsed completely in a number of rounds linear in its
length, and has at most one tree. Other than in C66, nonterminals that derive nothing are allowed. -/
theorem C130_rounds {g S input it} (hnodup : (alternatives g).Nodup) (hg : PrefixUnique g) (ho : Opened g S input it) :
    ∃ ts n it', DrainsIn it ts n it' ∧ n ≤ places g * (input.length + 1) + 1 ∧ ts.length ≤ 1 ∧ (ts ≠ [] ↔ Derives g S input) := by
  obtain ⟨hfin, hle⟩ := viable_linear (S := S) (input := input) hnodup hg
  obtain ⟨ts, n, it', h⟩ := (C65_drains_iff hnodup ho).mpr hfin
  obtain ⟨it1, hd, hnx⟩ := drainsIn_draws h
  have hm := C05_exhausted_exact ho hd hnx
  have hnd := C04_no_duplicates hnodup ho hd
  refine ⟨ts, n, it', h, by have := (C65_exact hnodup ho h).2.2; omega, ?_, ?_⟩
  · match ts, hm, hnd with
    | [], _, _ => simp
    | [_], _, _ => simp
    | a :: b :: _, hm, hnd =>
      have := hg S input [] a b ((hm a).mp (by simp)) (by simpa using (hm b).mp (by simp))
      subst this
      simp at hnd
  · constructor
    · intro hne
      obtain ⟨t, ht⟩ := List.exists_mem_of_ne_nil ts hne
      exact ⟨t, (hm t).mp ht⟩
    · rintro ⟨t, ht⟩ rfl
      exact absurd ((hm t).mpr ht) (by simp)

/-- C130: so is everything that the loops of the parser do. -/
theorem C130_work {g S input it A} (hnodup : (alternatives g).Nodup) (hg : PrefixUnique g) (ho : Opened g S input it)
    (hA : ∀ n, ((alternatives g).filter fun a => a.1 = .nonterminal n).length ≤ A) :
    ∃ ts c it', DrainsWith it ts c it' ∧
      c.rounds + c.predicts + c.matches_ + c.tests ≤ (A + 3) * (places g * (input.length + 1) + 1) := by
  obtain ⟨ts, n, it', h, hn, _⟩ := C130_rounds hnodup hg ho
  obtain ⟨c, hc⟩ := C105_drains.mpr (drainsIn_draws h)
  have h1 := C105_rounds ho hc h
  obtain ⟨h2, h3, h4, _⟩ := C105_bound ho hc hA
  refine ⟨ts, c, it', hc, Nat.le_trans ?_ (Nat.mul_le_mul_left (A + 3) hn)⟩
  rw [← h1]
  have : A * (c.rounds - 1) ≤ A * c.rounds := Nat.mul_le_mul_left _ (by omega)
  rw [Nat.add_mul]
  omega

/-- C130: a condition that can be read off: every alternative begins with a terminal, and the alternatives of a nonterminal begin with different
characters. -/
theorem C130_marked {g S input it} (hnodup : (alternatives g).Nodup) (hm : Marked g) (ho : Opened g S input it) :
    ∃ ts n it', DrainsIn it ts n it' ∧ n ≤ places g * (input.length + 1) + 1 ∧ ts.length ≤ 1 ∧ (ts ≠ [] ↔ Derives g S input) :=
  C130_rounds hnodup (marked_prefixUnique hm) ho

/-- Lists in brackets: `<e> ::= 'x' | '(' <l>`, `<l> ::= ')' | ',' <e> <l>`. -/
def gLists : Grammar := ⟨[⟨.nonterminal ['e'], [⟨[.terminal ['x']]⟩, ⟨[.terminal ['('], .nonterminal ['l']]⟩]⟩,
  ⟨.nonterminal ['l'], [⟨[.terminal [')']]⟩, ⟨[.terminal [','], .nonterminal ['e'], .nonterminal ['l']]⟩]⟩]⟩

theorem gLists_marked : Marked gLists := by
  have h : ∀ l e, HasAlt gLists l e → (l = .nonterminal ['e'] ∧ (e = ⟨[.terminal ['x']]⟩ ∨ e = ⟨[.terminal ['('], .nonterminal ['l']]⟩)) ∨
      (l = .nonterminal ['l'] ∧ (e = ⟨[.terminal [')']]⟩ ∨ e = ⟨[.terminal [','], .nonterminal ['e'], .nonterminal ['l']]⟩)) := by
    rintro l e ⟨p, hp, rfl, he⟩
    simp only [gLists, List.mem_cons, List.not_mem_nil, or_false] at hp
    rcases hp with rfl | rfl <;> simpa using he
  constructor
  · intro l e he
    rcases h l e he with ⟨_, rfl | rfl⟩ | ⟨_, rfl | rfl⟩ <;> exact ⟨_, _, _, rfl⟩
  · intro l e e' c s s' ts ts' he he' h1 h2
    rcases h l e he with ⟨rfl, rfl | rfl⟩ | ⟨rfl, rfl | rfl⟩ <;> rcases h _ e' he' with ⟨hl, rfl | rfl⟩ | ⟨hl, rfl | rfl⟩
    all_goals first
      | rfl
      | (simp only [Term.nonterminal.injEq, List.cons.injEq, and_true] at hl; exact absurd hl (by decide))
      | (simp only [List.cons.injEq, Term.terminal.injEq] at h1 h2; rw [← h1.1.1] at h2; exact absurd h2.1.1 (by decide))

/-- At most 11 rounds for each character, for every text. -/
example {input it} (ho : Opened gLists (.nonterminal ['e']) input it) : ∃ ts n it', DrainsIn it ts n it' ∧ n ≤ 11 * (input.length + 1) + 1 := by
  obtain ⟨ts, n, it', h1, h2, _⟩ := C130_marked (by decide) gLists_marked ho
  exact ⟨ts, n, it', h1, by simpa [places, alternatives, gLists] using h2⟩
set_option maxRecDepth 100000 in
example : ∃ it t it', Opened gLists (.nonterminal ['e']) ['(', ',', 'x', ')'] it ∧ Next it (some t) it' :=
  ⟨_, _, _, .deprecatedStarting rfl, 500, by rfl⟩

theorem polish_prefixUnique : PrefixUnique gPolishBench := by
  rintro T w v t t' h h'
  have hT : ∃ n, T = .nonterminal n ∧ (n = nProduct ∨ n = nOp ∨ n = nNumber) := by
    obtain ⟨rfl, ⟨e, ⟨p, hp, hl, _⟩, _⟩, _⟩ := h
    have : p ∈ rulesPolish := hp
    simp only [rulesPolish, List.mem_cons, List.not_mem_nil, or_false] at this
    rcases this with rfl | rfl | rfl
    · exact ⟨_, hl.symm, .inl rfl⟩
    · exact ⟨_, hl.symm, .inr (.inl rfl)⟩
    · exact ⟨_, hl.symm, .inr (.inr rfl)⟩
  obtain ⟨n, rfl, hn⟩ := hT
  obtain ⟨k, rfl, h1, h2⟩ := isParse_iff.mp h
  obtain ⟨k', rfl, h1', h2'⟩ := isParse_iff.mp h'
  have he : yield k ++ v = yield k' ++ [] := by rw [h2, h2', List.append_nil]
  rcases hn with rfl | rfl | rfl
  · rw [(polish_prefix _ k k' v [] le_rfl h1 h1' he).1]
  · obtain ⟨c, _, rfl⟩ := polish_op.mp h1
    obtain ⟨c', _, rfl⟩ := polish_op.mp h1'
    simp [yield, nodeYield] at he
    rw [he.1]
  · obtain ⟨c, _, rfl⟩ := polish_number.mp h1
    obtain ⟨c', _, rfl⟩ := polish_number.mp h1'
    simp [yield, nodeYield] at he
    rw [he.1]

/-- C130: the benchmarks with the calculator in prefix notation take linearly many rounds, for every text. -/
theorem C130_polish {input it} (ho : Opened gPolishBench (.nonterminal nProduct) input it) :
    ∃ ts n it', DrainsIn it ts n it' ∧ n ≤ 34 * (input.length + 1) + 1 ∧ ts.length ≤ 1 ∧
      (ts ≠ [] ↔ Derives gPolishBench (.nonterminal nProduct) input) := by
  have h := C130_rounds (by decide +kernel) polish_prefixUnique ho
  rwa [show places gPolishBench = 34 by decide +kernel] at h

/-- The condition is needed: `<s> ::= 'a' <s> | ''` is unambiguous, but the empty text begins every text. -/
example : Unambiguous gRight ∧ ¬ PrefixUnique gRight := by
  refine ⟨gRight_unambiguous, fun h => ?_⟩
  have := h (.nonterminal ['s']) [] ['a'] ⟨_, [.terminal []]⟩ ⟨_, [.terminal ['a'], .nonterminal (.nonterminal ['s']) [.terminal []]]⟩
    ⟨rfl, ⟨_, gRight_alt2, .terminal .nil⟩, rfl⟩ ⟨rfl, ⟨_, gRight_alt1, .terminal (.nonterminal gRight_alt2 (.terminal .nil) .nil)⟩, rfl⟩
  simp at this

end Bnf.Props
