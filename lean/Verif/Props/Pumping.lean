import Verif.Proofs.Pumping
import Verif.Props.Parsing
import Verif.Props.Text
import Verif.Chars
import Mathlib.Tactic.Linarith

/-! # Property C124: long texts can be pumped, and what no grammar can describe -/

set_option autoImplicit false

namespace Bnf.Props
open Bnf Spec

/-- C124: if the parser accepts a text longer than a bound that can be computed from the grammar, then some part of the text, together with another
one after it, can be repeated any number of times or left out, and the parser accepts what results. -/
theorem C124_pumping {g S w it t it'} (ho : Opened g S w it) (hn : Next it (some t) it') (hl : pumpBound g < w.length) :
    ∃ u v x y z, w = u ++ v ++ x ++ y ++ z ∧ v ++ y ≠ [] ∧ (v ++ x ++ y).length ≤ pumpBound g ∧
      ∀ k it2, Opened g S (u ++ times k v ++ x ++ times k y ++ z) it2 → ∃ t2 it2', Next it2 (some t2) it2' := by
  obtain ⟨u, v, x, y, z, h1, h2, h3, h4⟩ := Pump.pumping (C05_some_first ho hn) hl
  refine ⟨u, v, x, y, z, h1, h2, h3, fun k it2 ho2 => ?_⟩
  obtain ⟨t2, it2', h, _⟩ := C03_first_call_returns ho2 (h4 k)
  exact ⟨t2, it2', h⟩

/-- C124: the same in terms of derivations. -/
theorem C124_derivations {g S w} (h : Derives g S w) (hl : pumpBound g < w.length) :
    ∃ u v x y z, w = u ++ v ++ x ++ y ++ z ∧ v ++ y ≠ [] ∧ (v ++ x ++ y).length ≤ pumpBound g ∧
      ∀ k, Derives g S (u ++ times k v ++ x ++ times k y ++ z) := Pump.pumping h hl

/-- C124: the lengths of the texts that are accepted go on at equal distances. -/
theorem C124_lengths {g S w} (h : Derives g S w) (hl : pumpBound g < w.length) :
    ∃ d, 1 ≤ d ∧ d ≤ pumpBound g ∧ ∀ k, ∃ w', Derives g S w' ∧ w'.length = w.length + k * d := by
  obtain ⟨u, v, x, y, z, rfl, h2, h3, h4⟩ := Pump.pumping h hl
  have h5 : 0 < (v ++ y).length := List.length_pos_iff.mpr h2
  refine ⟨(v ++ y).length, h5, ?_, fun k => ⟨_, h4 (k + 1), ?_⟩⟩
  · simp at h3 ⊢
    omega
  · simp only [List.length_append, Pump.length_times, Nat.add_mul, Nat.mul_add]
    omega

/-- C124: if anything is accepted, then some text within the bound is. -/
theorem C124_shortest {g S w} (h : Derives g S w) : ∃ w', Derives g S w' ∧ w'.length ≤ pumpBound g := by
  induction hn : w.length using Nat.strong_induction_on generalizing w with
  | _ n ih =>
    by_cases hl : pumpBound g < w.length
    · obtain ⟨w', h1, h2, _⟩ := Pump.shorten h hl
      exact ih w'.length (by omega) h1 rfl
    · exact ⟨w, h, by omega⟩

/-- C124: there are arbitrarily long accepted texts exactly if there is one whose length is between the bound and twice the bound. -/
theorem C124_unlimited_iff {g S} : (∀ n, ∃ w, Derives g S w ∧ n ≤ w.length) ↔
    ∃ w, Derives g S w ∧ pumpBound g < w.length ∧ w.length ≤ 2 * pumpBound g := by
  constructor
  · intro h
    obtain ⟨w, h1, h2⟩ := h (pumpBound g + 1)
    have key : ∀ {w}, Derives g S w → pumpBound g < w.length →
        ∃ w, Derives g S w ∧ pumpBound g < w.length ∧ w.length ≤ 2 * pumpBound g := by
      intro w
      induction hn : w.length using Nat.strong_induction_on generalizing w with
      | _ n ih =>
        intro h hl
        by_cases h2 : w.length ≤ 2 * pumpBound g
        · exact ⟨w, h, by omega, h2⟩
        · obtain ⟨w', i1, i2, i3⟩ := Pump.shorten h (by omega)
          exact ih w'.length (by omega) rfl i1 (by omega)
    exact key h1 (by omega)
  · rintro ⟨w, h, hl, _⟩ n
    obtain ⟨d, hd, _, hk⟩ := C124_lengths h hl
    obtain ⟨w', h1, h2⟩ := hk n
    refine ⟨w', h1, ?_⟩
    have : n ≤ n * d := Nat.le_mul_of_pos_right _ hd
    omega

/-- C124: and exactly if infinitely many texts are accepted, so that this can be found out by trying finitely many texts. -/
theorem C124_infinite_iff {g S} : {w | Derives g S w}.Infinite ↔
    ∃ w, Derives g S w ∧ pumpBound g < w.length ∧ w.length ≤ 2 * pumpBound g := by
  constructor
  · intro h
    refine C124_unlimited_iff.mp fun n => ?_
    by_contra hn
    refine h ((Pump.finite_upto S n).subset fun w hw => ⟨hw, ?_⟩)
    by_contra hl
    exact hn ⟨w, hw, by omega⟩
  · intro h hf
    obtain ⟨n, hn⟩ := (hf.image List.length).bddAbove
    obtain ⟨w, h1, h2⟩ := C124_unlimited_iff.mpr h (n + 1)
    have := hn ⟨w, h1, rfl⟩
    omega

/-- C124: no grammar accepts exactly the texts of equally many `a`, `b` and `c` in this order, from whatever starting term. -/
theorem C124_three (g : Grammar) (S : Term) : ¬ ∀ w, Derives g S w ↔ ∃ n, w = abc n := Pump.no_abc S

/-- C124: in terms of the parser: whatever grammar is built, for some text the first call of `next()` does not do what it should. -/
theorem C124_three_parser {g : Grammar} {ord : List Str → List Str} {p : GrammarParser} {S : Term} (hb : g.buildParser ord = .ok p) :
    ¬ ∀ w, ∃ it, p.parseInputStartingWith w S = some it ∧ ((∃ t it', Next it (some t) it') ↔ ∃ n, w = abc n) := by
  intro h
  refine C124_three g S fun w => ?_
  obtain ⟨it, hi, hw⟩ := h w
  have ho : Opened g S w it := .parserStarting hb hi
  rw [← hw]
  constructor
  · intro h
    obtain ⟨t, it', h, _⟩ := C03_first_call_returns ho h
    exact ⟨t, it', h⟩
  · rintro ⟨t, it', h⟩
    exact C05_some_first ho h

/-- C124: no grammar accepts exactly the texts whose length is a square. -/
theorem C124_squares (g : Grammar) (S : Term) (c : Char) : ¬ ∀ w, Derives g S w ↔ ∃ n, w = List.replicate (n * n) c := by
  intro h
  have hw := (h (List.replicate ((pumpBound g + 1) * (pumpBound g + 1)) c)).mpr ⟨_, rfl⟩
  have hl : pumpBound g < (List.replicate ((pumpBound g + 1) * (pumpBound g + 1)) c).length := by
    rw [List.length_replicate]
    nlinarith
  obtain ⟨d, h1, h2, hk⟩ := C124_lengths hw hl
  obtain ⟨w', h3, h4⟩ := hk 1
  obtain ⟨m, rfl⟩ := (h w').mp h3
  rw [List.length_replicate, List.length_replicate] at h4
  have l1 : pumpBound g + 1 < m := by
    by_contra hm
    have : m * m ≤ (pumpBound g + 1) * (pumpBound g + 1) := Nat.mul_le_mul (by omega) (by omega)
    omega
  have l2 : (pumpBound g + 2) * (pumpBound g + 2) ≤ m * m := Nat.mul_le_mul (by omega) (by omega)
  nlinarith

/-- C124: there are two grammars such that no grammar accepts exactly what both accept. -/
theorem C124_both : ∃ g1 g2 S, ¬ ∃ g S', ∀ w, Derives g S' w ↔ Derives g1 S w ∧ Derives g2 S w := by
  refine ⟨Pump.leftPair, Pump.rightPair, .nonterminal ['s'], ?_⟩
  rintro ⟨g, S', h⟩
  exact C124_three g S' fun w => (h w).trans Pump.both_iff

/-- C124: these are the grammars of the following texts. -/
theorem C124_both_texts (f : Char → Bool) :
    Grammar.fromStr f (chars! "<s> ::= <p> <q>\n<p> ::= '' | 'a' <p> 'b'\n<q> ::= '' | 'c' <q>") = some (.ok Pump.leftPair) ∧
    Grammar.fromStr f (chars! "<s> ::= <q> <p>\n<p> ::= '' | 'b' <p> 'c'\n<q> ::= '' | 'a' <q>") = some (.ok Pump.rightPair) :=
  ⟨fromStr_of_BNF (by rfl), fromStr_of_BNF (by rfl)⟩

/-! ### Cases -/

/-- The bound for `<p> ::= '' | 'a' <p> 'b'`: one production, the largest alternative counts 3. -/
def nestedPairs : Grammar := ⟨[⟨.nonterminal ['p'], [⟨[.terminal []]⟩, ⟨[.terminal ['a'], .nonterminal ['p'], .terminal ['b']]⟩]⟩]⟩

theorem nestedPairs_bound : pumpBound nestedPairs = 9 := by decide

/-- It accepts texts longer than that, for example of ten letters, so there is no limit. -/
example : ∀ n, ∃ w, Derives nestedPairs (.nonterminal ['p']) w ∧ n ≤ w.length := by
  refine C124_unlimited_iff.mpr ⟨List.replicate 5 'a' ++ List.replicate 5 'b', ?_, ?_⟩
  · refine Pump.derives_sz.mpr ?_
    have hs : HasAlt nestedPairs (.nonterminal ['p']) ⟨[.terminal ['a'], .nonterminal ['p'], .terminal ['b']]⟩ := by simp [HasAlt, nestedPairs]
    have h0 : HasAlt nestedPairs (.nonterminal ['p']) ⟨[.terminal []]⟩ := by simp [HasAlt, nestedPairs]
    have step : ∀ {k w}, Pump.Sz nestedPairs [.terminal ['a'], .nonterminal ['p'], .terminal ['b']] k w →
        Pump.Sz nestedPairs [.terminal ['a'], .nonterminal ['p'], .terminal ['b']] (k + 1 + 0) ('a' :: (w ++ ['b'])) :=
      fun h => .terminal (s := ['a']) (.nonterminal hs h (.terminal (s := ['b']) .nil))
    have first : Pump.Sz nestedPairs [.terminal ['a'], .nonterminal ['p'], .terminal ['b']] (0 + 1 + 0) ['a', 'b'] :=
      .terminal (s := ['a']) (.nonterminal h0 (.terminal (s := []) .nil) (.terminal (s := ['b']) .nil))
    exact ⟨_, _, hs, step (step (step (step first)))⟩
  · rw [nestedPairs_bound]; decide

end Bnf.Props
