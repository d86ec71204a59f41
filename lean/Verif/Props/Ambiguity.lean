import Verif.Proofs.AmbiguityExample
import Verif.Props.WorkCopies

/-! # Property C114: the work of a parse and the ambiguity of the grammar -/

set_option autoImplicit false

namespace Bnf.Props
open Bnf Spec

/-- C114: in a grammar in which every nonterminal used derives something, every parse ends, after a number of rounds that
is at most quadratic in the length `L` of the input, times the number of ways to read a text of at most `L + c`
characters, where the constant `c` depends only on the grammar. -/
theorem C114_at_most {g : Grammar} (hp : Productive g) : ∃ c, ∀ a, AmbiguityAtMost g a → ∀ S input it, Opened g S input it →
    ∃ ts n it', DrainsIn it ts n it' ∧
      n ≤ places g * ((input.length + 1) * (input.length + 2) / 2) * a (input.length + c) + 1 := by
  obtain ⟨c, hc⟩ := padding_exists hp
  refine ⟨c, fun a ha S input it ho => ?_⟩
  obtain ⟨hfin, hle⟩ := viable_ambiguity (S := S) (input := input) hc ha
  obtain ⟨ts, n, it', h⟩ := (C65_drains_iff_any ho).mpr hfin
  refine ⟨ts, n, it', h, ?_⟩
  have := (C65_exact_repeated ho h).2.2
  simp only [begunCopies] at hle
  omega

/-- C114: with ambiguity at most `k` at most `k` times the quadratic bound of unambiguous grammars. -/
theorem C114_bounded {g : Grammar} (hp : Productive g) {k : Nat} (hk : ∀ T w, ReadAtMost g T w k) {S input it}
    (ho : Opened g S input it) : ∃ ts n it', DrainsIn it ts n it' ∧
      n ≤ places g * ((input.length + 1) * (input.length + 2) / 2) * k + 1 := by
  obtain ⟨c, h⟩ := C114_at_most hp
  exact h (fun _ => k) (fun _ T w _ => hk T w) S input it ho

/-- C114: conversely, in any grammar, draining takes more rounds than there are ways to read any part of the input as a
term that is expected where the part begins. -/
theorem C114_at_least {g S input it ts n it'} (ho : Opened g S input it) (h : DrainsIn it ts n it') {u w r T}
    (hex : Expected g S input u T) (hi : input = u ++ w ++ r) : ReadAtMost g T w (n - 1) := by
  obtain ⟨hfin, _, hn⟩ := C65_exact_repeated ho h
  have := viable_trees hex hi hfin
  simp only [begunCopies] at this
  rwa [hn, Nat.add_sub_cancel]

/-- C114: so all parses take a polynomial number of rounds exactly if the number of ways to read a text is at most
polynomial in its length. -/
theorem C114_polynomial_iff {g : Grammar} (hp : Productive g) :
    (∃ C d, ∀ S input it, Opened g S input it → ∃ ts n it', DrainsIn it ts n it' ∧ n ≤ C * (input.length + 1) ^ d) ↔
      ∃ C d, AmbiguityAtMost g fun n => C * (n + 1) ^ d := by
  constructor
  · rintro ⟨C, d, h⟩
    refine ⟨C, d, fun n T w hw => ?_⟩
    by_cases hg : g.productions = []
    · have hno : {t | IsParse g T w t} = ∅ := by
        ext t
        simp only [Set.mem_ofPred_eq, Set.mem_empty_iff_false, iff_false]
        rintro ⟨_, ⟨e, ⟨p, hp, _⟩, _⟩, _⟩
        rw [hg] at hp
        simp at hp
      unfold ReadAtMost
      rw [hno]
      simp
    · obtain ⟨it, ho⟩ := opened_of (S := T) (input := w) hg
      obtain ⟨ts, m, it', hd, hm⟩ := h T w it ho
      obtain ⟨h1, h2⟩ := C114_at_least ho hd (u := []) (w := w) (r := []) .start (by simp)
      refine ⟨h1, h2.trans ((Nat.sub_le _ _).trans (hm.trans ?_))⟩
      exact Nat.mul_le_mul_left _ (Nat.pow_le_pow_left (by omega) d)
  · rintro ⟨C, d, ha⟩
    obtain ⟨c, h⟩ := C114_at_most hp
    refine ⟨places g * C * (c + 1) ^ d + 1, d + 2, fun S input it ho => ?_⟩
    obtain ⟨ts, n, it', hd, hn⟩ := h _ ha S input it ho
    exact ⟨ts, n, it', hd, hn.trans (poly_bound _ _ _ _ _)⟩

/-- An ambiguous grammar that meets the hypotheses, `<s> ::= <a> <a>`, `<a> ::= 'x' <a> | ''`: a text of `n` letters can
be read in at most `n + 2` ways, so all parses take at most cubically many rounds. -/
example : ∃ C, ∀ S input it, Opened gTwo S input it → ∃ ts n it', DrainsIn it ts n it' ∧ n ≤ C * (input.length + 1) ^ 3 := by
  obtain ⟨c, h⟩ := C114_at_most gTwo_productive
  refine ⟨places gTwo * 2 * (c + 1) ^ 1 + 1, fun S input it ho => ?_⟩
  obtain ⟨ts, n, it', hd, hn⟩ := h (fun n => 2 * (n + 1) ^ 1) (fun n T w hw => by
    obtain ⟨h1, h2⟩ := gTwo_ambiguity n T w hw
    exact ⟨h1, h2.trans (by simp; omega)⟩) S input it ho
  exact ⟨ts, n, it', hd, hn.trans (poly_bound _ _ _ _ _)⟩

/-- It is ambiguous. -/
example : ¬ Unambiguous gTwo := by
  intro h
  have a1 : HasAlt gTwo (.nonterminal ['s']) ⟨[.nonterminal ['a'], .nonterminal ['a']]⟩ := ⟨_, List.mem_cons_self, rfl, by simp⟩
  have a2 : HasAlt gTwo (.nonterminal ['a']) ⟨[.terminal ['x'], .nonterminal ['a']]⟩ :=
    ⟨_, List.mem_cons_of_mem _ List.mem_cons_self, rfl, by simp⟩
  have a3 : HasAlt gTwo (.nonterminal ['a']) ⟨[.terminal []]⟩ := ⟨_, List.mem_cons_of_mem _ List.mem_cons_self, rfl, by simp⟩
  have f0 : IsForest gTwo [.terminal []] (twoKids 0) := .terminal .nil
  have f1 : IsForest gTwo [.terminal ['x'], .nonterminal ['a']] (twoKids 1) := .terminal (.nonterminal a3 f0 .nil)
  have := h (.nonterminal ['s']) ['x'] ⟨.nonterminal ['s'], [.nonterminal (.nonterminal ['a']) (twoKids 0), .nonterminal (.nonterminal ['a']) (twoKids 1)]⟩
    ⟨.nonterminal ['s'], [.nonterminal (.nonterminal ['a']) (twoKids 1), .nonterminal (.nonterminal ['a']) (twoKids 0)]⟩
    ⟨rfl, ⟨_, a1, .nonterminal a3 f0 (.nonterminal a2 f1 .nil)⟩, rfl⟩ ⟨rfl, ⟨_, a1, .nonterminal a2 f1 (.nonterminal a3 f0 .nil)⟩, rfl⟩
  simp [twoKids] at this

/-- C114: the grammar `<s> ::= <s> <s> | 'a'` has no polynomial bound. -/
theorem C114_exponential_witness :
    (¬ ∃ C d, AmbiguityAtMost gDouble fun n => C * (n + 1) ^ d) ∧
    ¬ ∃ C d, ∀ S input it, Opened gDouble S input it → ∃ ts n it', DrainsIn it ts n it' ∧ n ≤ C * (input.length + 1) ^ d := by
  have hp : Productive gDouble := by
    intro lhs e n ha hn
    obtain ⟨p, hp, _, he⟩ := ha
    have hs : n = ['s'] := by
      simp only [gDouble, List.mem_singleton] at hp
      subst hp
      simp only [List.mem_cons, List.not_mem_nil, or_false] at he
      rcases he with rfl | rfl
      · simpa using hn
      · simp at hn
    subst hs
    exact ⟨['a'], ⟨.nonterminal ['s'], [.terminal ['a']]⟩, rfl, ⟨⟨[.terminal ['a']]⟩, ⟨_, List.mem_cons_self, rfl, by simp⟩,
      .terminal .nil⟩, rfl⟩
  have key : ¬ ∃ C d, ∀ S input it, Opened gDouble S input it →
      ∃ ts n it', DrainsIn it ts n it' ∧ n ≤ C * (input.length + 1) ^ d := by
    rintro ⟨C, d, h⟩
    obtain ⟨n, hn⟩ := two_pow_outgrows C d
    obtain ⟨it, ho⟩ := opened_of (g := gDouble) (S := .nonterminal ['s']) (input := List.replicate (n + 1 + 1) 'a') (by simp [gDouble])
    obtain ⟨ts, m, it', hd, hm⟩ := h _ _ it ho
    have h1 := C67_rounds (rest := []) (by simpa using ho) hd
    have h2 := catalan_growth n
    simp only [List.length_replicate] at hm
    have : n + 1 + 1 + 1 = n + 3 := rfl
    rw [this] at hm
    omega
  exact ⟨fun h => key ((C114_polynomial_iff hp).mpr h), key⟩

end Bnf.Props
