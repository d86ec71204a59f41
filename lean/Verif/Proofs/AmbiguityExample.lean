import Verif.Proofs.Ambiguity
import Mathlib.Tactic.Ring

/-! # A grammar that is ambiguous, but not exponentially -/

set_option autoImplicit false

namespace Bnf
open Spec

theorem timesListed_count (g : Grammar) (l : Term) (e : Expression) : timesListed g l e = (alternatives g).count (l, e) := by
  unfold timesListed alternatives
  rw [List.count_flatMap]
  congr 1
  refine List.map_congr_left fun p _ => ?_
  simp only [Function.comp]
  have key : ∀ es : List Expression, (es.map fun e => (p.lhs, e)).count (l, e) = if p.lhs = l then es.count e else 0 := by
    intro es
    induction es with
    | nil => simp
    | cons x es ih =>
      rw [List.map_cons, List.count_cons, ih, List.count_cons]
      by_cases h : p.lhs = l <;> simp [h]
  exact (key p.rhs).symm

theorem timesListed_one {g : Grammar} (hn : (alternatives g).Nodup) (l : Term) (e : Expression) : timesListed g l e ≤ 1 := by
  rw [timesListed_count]; exact List.nodup_iff_count_le_one.mp hn _

theorem forestCopies_one {g : Grammar} (hn : (alternatives g).Nodup) {ts ns} (h : IsForest g ts ns) : forestCopies g ns ≤ 1 := by
  induction h with
  | nil => simp [forestCopies]
  | terminal _ ih => simpa [forestCopies, nodeCopies] using ih
  | nonterminal ha hf _ ih1 ih2 =>
    simp only [forestCopies, nodeCopies]
    exact Nat.mul_le_mul (Nat.mul_le_mul (timesListed_one hn _ _) ih1) ih2

open scoped Classical in
/-- Without repeated alternatives only the trees are counted. -/
theorem readAtMost_of_nodup {g : Grammar} (hn : (alternatives g).Nodup) {T w k} (s : Finset ParseTree)
    (hs : ∀ t, IsParse g T w t → t ∈ s) (hk : s.card ≤ k) : ReadAtMost g T w k := by
  have hfin : {t | IsParse g T w t}.Finite := s.finite_toSet.subset hs
  refine ⟨hfin, ?_⟩
  rw [finsum_mem_eq_finite_toFinset_sum _ hfin]
  refine (Finset.sum_le_card_nsmul _ _ 1 ?_).trans ?_
  · intro t ht
    obtain ⟨_, ⟨e, ha, hf⟩, _⟩ : IsParse g T w t := by simpa using ht
    exact Nat.mul_le_mul (timesListed_one hn _ _) (forestCopies_one hn hf)
  · rw [smul_eq_mul, mul_one]
    refine (Finset.card_le_card fun t ht => ?_).trans hk
    exact hs t (by simpa using ht)

/-- `<s> ::= <a> <a>`, `<a> ::= 'x' <a> | ''`. -/
def gTwo : Grammar :=
  ⟨[⟨.nonterminal ['s'], [⟨[.nonterminal ['a'], .nonterminal ['a']]⟩]⟩,
    ⟨.nonterminal ['a'], [⟨[.terminal ['x'], .nonterminal ['a']]⟩, ⟨[.terminal []]⟩]⟩]⟩

def twoKids : Nat → List ParseTreeNode
  | 0 => [.terminal []]
  | n + 1 => [.terminal ['x'], .nonterminal (.nonterminal ['a']) (twoKids n)]

theorem twoKids_yield (n : Nat) : Spec.yield (twoKids n) = List.replicate n 'x' := by
  induction n with
  | zero => rfl
  | succ n ih => simp [twoKids, Spec.yield, Spec.nodeYield, ih, List.replicate_succ]

theorem gTwo_alts {l e} (h : HasAlt gTwo l e) :
    (l = .nonterminal ['s'] ∧ e = ⟨[.nonterminal ['a'], .nonterminal ['a']]⟩) ∨
    (l = .nonterminal ['a'] ∧ (e = ⟨[.terminal ['x'], .nonterminal ['a']]⟩ ∨ e = ⟨[.terminal []]⟩)) := by
  obtain ⟨p, hp, rfl, he⟩ := h
  simp only [gTwo, List.mem_cons, List.not_mem_nil, or_false] at hp
  rcases hp with rfl | rfl <;> simpa using he

theorem twoKids_nodes {ts ns} (h : IsForest gTwo ts ns) :
    ∀ kids, ParseTreeNode.nonterminal (.nonterminal ['a']) kids ∈ ns → ∃ n, kids = twoKids n := by
  induction h with
  | nil => intro kids h; simp at h
  | terminal _ ih =>
    intro kids h
    simp only [List.mem_cons, reduceCtorEq, false_or] at h
    exact ih kids h
  | @nonterminal n e kids0 ts ns ha hk _ ih1 ih2 =>
    intro kids h
    rcases List.mem_cons.mp h with h | h
    · injection h with h0 h
      injection h0 with h0
      subst h h0
      rcases gTwo_alts ha with ⟨h1, _⟩ | ⟨_, rfl | rfl⟩
      · simp at h1
      · simp only at hk
        cases hk with
        | terminal h2 =>
          cases h2 with
          | nonterminal _ _ h3 =>
            cases h3
            obtain ⟨n, rfl⟩ := ih1 _ (List.mem_cons_of_mem _ List.mem_cons_self)
            exact ⟨n + 1, rfl⟩
      · simp only at hk
        cases hk with
        | terminal h2 => cases h2; exact ⟨0, rfl⟩
    · exact ih2 kids h

theorem gTwo_ambiguity : AmbiguityAtMost gTwo (fun n => n + 2) := by
  classical
  intro n T w hw
  refine readAtMost_of_nodup (by decide)
    (insert ⟨.nonterminal ['a'], twoKids w.length⟩ ((Finset.range (w.length + 1)).image fun i => ⟨.nonterminal ['s'],
      [.nonterminal (.nonterminal ['a']) (twoKids i), .nonterminal (.nonterminal ['a']) (twoKids (w.length - i))]⟩)) ?_ ?_
  · rintro ⟨l, ns⟩ ⟨hl, ⟨e, ha, hf⟩, hy⟩
    dsimp only at hl ha hf hy
    subst hl
    rcases gTwo_alts ha with ⟨rfl, rfl⟩ | ⟨rfl, _⟩
    · cases hf with
      | nonterminal a1 f1 h1 =>
        cases h1 with
        | nonterminal a2 f2 h2 =>
          cases h2
          obtain ⟨i, rfl⟩ := twoKids_nodes (.nonterminal a1 f1 .nil) _ List.mem_cons_self
          obtain ⟨j, rfl⟩ := twoKids_nodes (.nonterminal a2 f2 .nil) _ List.mem_cons_self
          have hlen := congrArg List.length hy
          simp only [Spec.yield, Spec.nodeYield, twoKids_yield, List.length_append, List.length_replicate, List.length_nil] at hlen
          refine Finset.mem_insert_of_mem (Finset.mem_image.mpr ⟨i, Finset.mem_range.mpr (by omega), ?_⟩)
          rw [show w.length - i = j by omega]
    · obtain ⟨i, rfl⟩ := twoKids_nodes (.nonterminal ha hf .nil) _ List.mem_cons_self
      have hlen := congrArg List.length hy
      simp only [twoKids_yield, List.length_replicate] at hlen
      rw [hlen]
      exact Finset.mem_insert_self _ _
  · refine (Finset.card_insert_le _ _).trans ?_
    have := Finset.card_image_le (s := Finset.range (w.length + 1)) (f := fun i => (⟨.nonterminal ['s'],
      [.nonterminal (.nonterminal ['a']) (twoKids i), .nonterminal (.nonterminal ['a']) (twoKids (w.length - i))]⟩ : ParseTree))
    rw [Finset.card_range] at this
    dsimp only
    omega

theorem gTwo_productive : Productive gTwo := by
  have h2 : HasAlt gTwo (.nonterminal ['a']) ⟨[.terminal []]⟩ := ⟨_, List.mem_cons_of_mem _ List.mem_cons_self, rfl, by simp⟩
  have hd : ∃ w, Derives gTwo (.nonterminal ['a']) w :=
    ⟨[], ⟨.nonterminal ['a'], [.terminal []]⟩, rfl, ⟨_, h2, .terminal .nil⟩, rfl⟩
  intro lhs e n ha hn
  rcases gTwo_alts ha with ⟨_, rfl⟩ | ⟨_, rfl | rfl⟩
  · simp at hn; subst hn; exact hd
  · simp at hn; subst hn; exact hd
  · simp at hn

/-- The bound of `C114_at_most` is a polynomial if the ambiguity is. -/
theorem poly_bound (P C c d L : Nat) :
    P * ((L + 1) * (L + 2) / 2) * (C * (L + c + 1) ^ d) + 1 ≤ (P * C * (c + 1) ^ d + 1) * (L + 1) ^ (d + 2) := by
  have h1 : (L + 1) * (L + 2) / 2 ≤ (L + 1) ^ 2 := by
    have : (L + 1) * (L + 2) ≤ 2 * (L + 1) ^ 2 := by
      rw [pow_two, Nat.mul_left_comm]
      exact Nat.mul_le_mul_left _ (by omega)
    omega
  have h2 : L + c + 1 ≤ (c + 1) * (L + 1) := by
    rw [Nat.add_mul, Nat.mul_add]; omega
  have h3 := Nat.pow_le_pow_left h2 d
  rw [Nat.mul_pow] at h3
  have h4 : 1 ≤ (L + 1) ^ (d + 2) := Nat.one_le_pow _ _ (by omega)
  calc P * ((L + 1) * (L + 2) / 2) * (C * (L + c + 1) ^ d) + 1
      ≤ P * (L + 1) ^ 2 * (C * ((c + 1) ^ d * (L + 1) ^ d)) + (L + 1) ^ (d + 2) :=
        Nat.add_le_add (Nat.mul_le_mul (Nat.mul_le_mul_left _ h1) (Nat.mul_le_mul_left _ h3)) h4
    _ = (P * C * (c + 1) ^ d + 1) * (L + 1) ^ (d + 2) := by ring

/-- Powers of two outgrow every polynomial. -/
theorem two_pow_outgrows (C d : Nat) : ∃ n, C * (n + 3) ^ d < 2 ^ n := by
  let j := 2 * d + C + 1
  refine ⟨2 ^ (2 * j), ?_⟩
  have h1 : (j + 1) * (j + 1) ≤ 2 ^ (2 * j) := by
    rw [Nat.two_mul, Nat.pow_add]
    exact Nat.mul_le_mul Nat.lt_two_pow_self Nat.lt_two_pow_self
  have h2 : 2 ^ (2 * j) + 3 ≤ 2 ^ (2 * j + 2) := by
    have : 1 ≤ 2 ^ (2 * j) := Nat.one_le_two_pow
    rw [Nat.pow_add]; omega
  have h3 : C + (2 * j + 2) * d < 2 ^ (2 * j) := by
    refine lt_of_lt_of_le ?_ h1
    have : (j + 1) * (j + 1) = (j + 1) * (2 * d) + (j + 1) * (C + 2) := by
      rw [← Nat.mul_add]; congr 1
    rw [this]
    have e1 : (2 * j + 2) * d = (j + 1) * (2 * d) := by ring
    have e2 : C + 2 ≤ (j + 1) * (C + 2) := Nat.le_mul_of_pos_left _ (by omega)
    omega
  calc C * (2 ^ (2 * j) + 3) ^ d ≤ 2 ^ C * (2 ^ (2 * j + 2)) ^ d :=
        Nat.mul_le_mul Nat.lt_two_pow_self.le (Nat.pow_le_pow_left h2 d)
    _ = 2 ^ (C + (2 * j + 2) * d) := by rw [← Nat.pow_mul, ← Nat.pow_add]
    _ < 2 ^ (2 ^ (2 * j)) := Nat.pow_lt_pow_right (by omega) h3

end Bnf
