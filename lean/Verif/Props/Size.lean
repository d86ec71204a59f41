import Verif.Props.Generate

/-!
# C73: the size of depth-bounded sentences

`src/generation.rs` 63: "valid but strictly bounded in size".
-/

set_option autoImplicit false

namespace Bnf.Props
open Bnf Bnf.Spec
variable {ρ Seed : Type} {R : Rng ρ Seed}

theorem evalTerms_size {σ : Type} {trav : Str → σ → GenRes σ} {X : Nat} : ∀ (ts : List Term) (r : Str) (st : σ) {s st'},
    (∀ u, .terminal u ∈ ts → u.length ≤ X) → (∀ n st s st', .nonterminal n ∈ ts → trav n st = .done (.ok s) st' → s.length ≤ X) →
    evalTerms trav ts r st = .done (.ok s) st' → s.length ≤ r.length + ts.length * X
  | [], r, st, s, st', _, _, h => by
    simp only [evalTerms, GenRes.done.injEq, Except.ok.injEq] at h
    simp [h.1]
  | .terminal u :: ts, r, st, s, st', h1, h2, h => by
    rw [evalTerms] at h
    have := evalTerms_size ts _ _ (fun u hu => h1 u (by simp [hu])) (fun n st s st' hn => h2 n st s st' (by simp [hn])) h
    have hu := h1 u (by simp)
    simp only [List.length_append, List.length_cons, Nat.succ_mul] at this ⊢
    omega
  | .nonterminal n :: ts, r, st, s, st', h1, h2, h => by
    rw [evalTerms] at h
    split at h
    · next v st1 hv =>
      have := evalTerms_size ts _ _ (fun u hu => h1 u (by simp [hu])) (fun n st s st' hn => h2 n st s st' (by simp [hn])) h
      have hu := h2 n _ _ _ (by simp) hv
      simp only [List.length_append, List.length_cons, Nat.succ_mul] at this ⊢
      omega
    · cases h
    · cases h
    · cases h

theorem traverse_size {g : Grammar} {m B T : Nat} (hz : Sizes g B T) (hB : 0 < B) (h : ∀ n p, IsFirst g n p → ∃ e ∈ p.rhs, AllTerminal e)
    (f : Callback ρ) : ∀ (N : Nat) (n : Str) (d : Nat) (st : ρ) {s st'}, (¬ Declared g n → n.length ≤ T) →
    traverse g (DepthBounded R m) f N n d st = .done (.ok s) st' → s.length ≤ T * B ^ (m - d + 1)
  | 0, _, _, _, _, _, _, ht => by simp [traverse] at ht
  | N + 1, n, d, st, s, st', hn, ht => by
    have hpow : 1 ≤ B ^ (m - d + 1) := Nat.one_le_pow _ _ hB
    cases hf : findProduction n g.productions 0 with
    | none =>
      rw [traverse_undeclared hf] at ht
      injection ht with ht _
      injection ht with ht
      subst ht
      exact (hn (undeclared_of_find hf)).trans (Nat.le_mul_of_pos_right _ hpow)
    | some x =>
      obtain ⟨a, p⟩ := x
      by_cases hc : productionHasNoChoice p = true
      · rw [traverse_noChoice hf hc] at ht; cases ht
      · have hp := isFirst_mem (isFirst_of_find hf)
        obtain ⟨e0, he0, ha0⟩ := h n p (isFirst_of_find hf)
        obtain ⟨e, he, h3, h4⟩ := depthBounded_spec (R := R) m st a p d (List.ne_nil_of_mem he0)
        rw [traverse_choose hf hc] at ht
        have hch : (DepthBounded R m).choose st a p d = (.expr e, ((DepthBounded R m).choose st a p d).2) := Prod.ext h3 rfl
        rw [hch] at ht
        simp only at ht
        cases hev : evalTerms (fun nt st => traverse g (DepthBounded R m) f N nt (d + 1) st) e.terms [] ((DepthBounded R m).choose st a p d).2 with
        | fuel => rw [hev] at ht; cases ht
        | panic => rw [hev] at ht; cases ht
        | done r st1 =>
          rw [hev] at ht
          cases r with
          | error _ => cases ht
          | ok v =>
            simp only at ht
            have hlen : v.length ≤ T * B ^ (m - d + 1) := by
              have hterm : ∀ u, .terminal u ∈ e.terms → u.length ≤ T := fun u hu => hz.chars p hp e he u (.inl hu)
              by_cases hd : m ≤ d
              · have hall := h4 hd ⟨e0, he0, ha0⟩
                have := evalTerms_size e.terms [] _ hterm (fun n st s st' hn => by
                  obtain ⟨u, hu⟩ := hall _ hn
                  cases hu) hev
                rw [show m - d = 0 by omega, Nat.zero_add, Nat.pow_one, Nat.mul_comm]
                simp only [List.length_nil, Nat.zero_add] at this
                exact this.trans (Nat.mul_le_mul_right _ (hz.terms p hp e he))
              · have := evalTerms_size (X := T * B ^ (m - (d + 1) + 1)) e.terms [] _
                  (fun u hu => (hterm u hu).trans (Nat.le_mul_of_pos_right _ (Nat.one_le_pow _ _ hB)))
                  (fun k st s st' hk ht => traverse_size hz hB h f N k (d + 1) st (fun _ => hz.chars p hp e he k (.inr hk)) ht) hev
                simp only [List.length_nil, Nat.zero_add] at this
                refine this.trans ((Nat.mul_le_mul_right _ (hz.terms p hp e he)).trans (le_of_eq ?_))
                rw [show m - d + 1 = (m - (d + 1) + 1) + 1 by omega, Nat.pow_succ B (m - (d + 1) + 1), Nat.mul_left_comm,
                  Nat.mul_comm B]
            split at ht
            · injection ht with ht _
              injection ht with ht
              subst ht
              exact hlen
            · exact traverse_size hz hB h f N n d _ hn ht

/-- C73: if every first production has an alternative made of terminals only, every sentence generated with `DepthBounded { max_depth: m }` has at
most `T * B ^ (m + 1)` characters, where no alternative has more than `B` terms and no terminal or name more than `T` characters: for every
random source, also with a callback. -/
theorem C73_size {g : Grammar} (m : Nat) {B T : Nat} (hz : Sizes g B T) (hB : 0 < B) (h : ∀ n p, IsFirst g n p → ∃ e ∈ p.rhs, AllTerminal e)
    (f : Callback ρ) (fuel : Nat) (st : ρ) {s st'} (hg : g.generateWith (DepthBounded R m) f fuel st = .done (.ok s) st') :
    s.length ≤ T * B ^ (m + 1) := by
  unfold Grammar.generateWith at hg
  split at hg
  · cases hg
  · cases hg
  · split at hg
    · next p ps hp =>
      split at hg
      · next nt hl =>
        have := traverse_size (R := R) (m := m) hz hB h f fuel nt 0 st (fun hn => absurd ⟨p, by simp [hp], hl⟩ hn) hg
        simpa using this
      · cases hg
    · cases hg

/-- `<s> ::= <s> <s> | 'x'`. -/
def gDouble : Grammar := ⟨[⟨.nonterminal ['s'], [⟨[.nonterminal ['s'], .nonterminal ['s']]⟩, ⟨[.terminal ['x']]⟩]⟩]⟩

theorem gDouble_sizes : Sizes gDouble 2 1 := by
  constructor
  · intro p hp e he
    simp only [gDouble, List.mem_singleton] at hp
    subst hp
    simp only [List.mem_cons, List.not_mem_nil, or_false] at he
    rcases he with rfl | rfl <;> simp
  · intro p hp e he u hu
    simp only [gDouble, List.mem_singleton] at hp
    subst hp
    simp only [List.mem_cons, List.not_mem_nil, or_false] at he
    rcases he with rfl | rfl <;> simp at hu <;> simp [hu]

theorem gDouble_terminal : ∀ n p, IsFirst gDouble n p → ∃ e ∈ p.rhs, AllTerminal e := by
  intro n p ⟨a, b, h, _⟩
  have hp : p ∈ gDouble.productions := by rw [h]; simp
  simp only [gDouble, List.mem_singleton] at hp
  subst hp
  exact ⟨⟨[.terminal ['x']]⟩, by simp, fun t ht => ⟨['x'], by simpa using ht⟩⟩

/-- The hypotheses are met, and the exponential growth is real: with `max_depth` 2 a sentence of 4 characters is generated. -/
example : Sizes gDouble 2 1 ∧ (∀ n p, IsFirst gDouble n p → ∃ e ∈ p.rhs, AllTerminal e) ∧
    ∃ st, gDouble.generateSeededWithStrategy (DepthBounded scriptRng 2) 10 [0, 0, 0, 0, 0, 0, 0] = .done (.ok ['x', 'x', 'x', 'x']) st :=
  ⟨gDouble_sizes, gDouble_terminal, _, by rfl⟩

end Bnf.Props
