import Verif.Proofs.Passes

/-! # C92: how much work `terminates` does before each generation -/

set_option autoImplicit false

namespace Bnf.Props
open Bnf Bnf.Spec

/-- C92: counting changes nothing, and the counted run ends for every grammar. -/
theorem C92_result (g : Grammar) : ∃ b k c, g.terminatesWork = some (b, k, c) ∧ g.terminates = some b := by
  obtain ⟨b, hb, _⟩ := terminates_spec g
  have h := terminatesWork_fst g
  rw [hb, Option.map_eq_some_iff] at h
  obtain ⟨⟨b', k, c⟩, h1, h2⟩ := h
  simp only at h2
  exact ⟨b', k, c, h1, by rw [hb, h2]⟩

/-- C92: the loop goes through the productions at most once per different left-hand side from which a text can be derived: `P` may be
any list that has all of these. -/
theorem C92_passes {g : Grammar} {b : Bool} {k c : Nat} (h : g.terminatesWork = some (b, k, c)) {P : List Term}
    (hP : ∀ p ∈ g.productions, (∃ w, Derives g p.lhs w) → p.lhs ∈ P) : k ≤ P.length :=
  terminatesWork_passes hP h

/-- C92: so at most once per production. -/
theorem C92_passes_productions {g : Grammar} {b : Bool} {k c : Nat} (h : g.terminatesWork = some (b, k, c)) :
    k ≤ g.productions.length := by
  have := C92_passes h (P := g.productions.map Production.lhs) (fun p hp _ => List.mem_map.2 ⟨p, hp, rfl⟩)
  simpa using this

/-- C92: in each pass no term (left-hand side or nonterminal of a right-hand side) is compared with more terms than there are
productions; the last comparison with the start comes on top. -/
theorem C92_comparisons {g : Grammar} {b : Bool} {k c : Nat} (h : g.terminatesWork = some (b, k, c)) :
    c ≤ (k * (g.productions.length + allOccurrences g.productions) + 1) * g.productions.length :=
  terminatesWork_cost h

/-- C92: what is compared for a right-hand side: alternatives are looked at up to the first that terminates, the nonterminals of each up to the first that is not yet known to
terminate, and each of these is compared with the known ones up to the one that is equal. -/
theorem C92_looked_at (rules : List Term) (es : List Expression) : altsCost rules es =
    ((es.take (es.findIdx (fun e => e.terms.all fun t => !t.isNonterminal || rules.contains t) + 1)).map fun e =>
      (((e.terms.filter Term.isNonterminal).take ((e.terms.filter Term.isNonterminal).findIdx (fun t => !rules.contains t) + 1)).map fun t =>
        min (rules.idxOf t + 1) rules.length).sum).sum := by
  have h1 : ∀ (t : Term) (l : List Term), vecContainsCost t l = min (l.idxOf t + 1) l.length := by
    intro t l
    induction l with
    | nil => rfl
    | cons x xs ih =>
      rw [vecContainsCost, List.idxOf_cons, List.length_cons]
      by_cases hx : x = t
      · simp [hx]
      · have : (x == t) = false := by simpa using hx
        rw [if_neg hx, ih, this, cond_false]
        omega
  have h2 : ∀ l : List Term, nontermsCost rules l = ((l.take (l.findIdx (fun t => !rules.contains t) + 1)).map fun t => min (rules.idxOf t + 1) rules.length).sum := by
    intro l
    induction l with
    | nil => simp [nontermsCost]
    | cons t ts ih =>
      rw [nontermsCost, List.findIdx_cons]
      by_cases hc : rules.contains t = true
      · rw [if_pos hc, hc, ih, h1]
        simp
      · have hc' : rules.contains t = false := by simpa using hc
        rw [if_neg hc, hc', h1]
        simp
  have h3 : ∀ e : Expression, e.terminates (some rules) = e.terms.all fun t => !t.isNonterminal || rules.contains t := by
    intro e
    unfold Expression.terminates
    simp only
    induction e.terms with
    | nil => simp
    | cons t ts ih =>
      cases ht : t.isNonterminal with
      | true => simp [ht]
      | false => simp [ht] at ih ⊢; exact ih
  induction es with
  | nil => simp [altsCost]
  | cons e es ih =>
    rw [altsCost, List.findIdx_cons, h3 e]
    by_cases hc : (e.terms.all fun t => !t.isNonterminal || rules.contains t) = true
    · rw [if_pos hc, hc, exprCost, h2]
      simp
    · rw [if_neg hc, Bool.eq_false_iff.mpr hc, ih, exprCost, h2]
      simp

/-- The second alternative is not looked at: one comparison. -/
example : altsCost [.nonterminal ['a'], .nonterminal ['b']] [⟨[.nonterminal ['a']]⟩, ⟨[.nonterminal ['b']]⟩] = 1 := by decide

/-- The chain with three links, highest first: `<s> ::= <s>`, `<aaa> ::= <aa>`, `<aa> ::= <a>`, `<a> ::= 'x'`. -/
example : chainDown 3 = ⟨[⟨.nonterminal ['s'], [⟨[.nonterminal ['s']]⟩]⟩,
    ⟨.nonterminal ['a', 'a', 'a'], [⟨[.nonterminal ['a', 'a']]⟩]⟩, ⟨.nonterminal ['a', 'a'], [⟨[.nonterminal ['a']]⟩]⟩,
    ⟨.nonterminal ['a'], [⟨[.terminal ['x']]⟩]⟩]⟩ := rfl

example : (chainDown 3).terminatesWork = some (false, 3, 33) := by decide +kernel

/-- C92: the bound on the passes is attained, and cubic work is: a chain of `n` rules (each with one alternative of one term), the
highest first, behind a start that derives nothing.  Exactly `n` passes, and `n (n + 1) (n + 2) / 2 + n` comparisons of terms. -/
theorem C92_worst (n : Nat) (hn : 0 < n) : ∃ c, (chainDown n).terminatesWork = some (false, n, c) ∧
    2 * c = n * (n + 1) * (n + 2) + 2 * n := by
  obtain ⟨m, rfl⟩ : ∃ m, n = m + 1 := ⟨n - 1, by omega⟩
  obtain ⟨c, h1, h2⟩ := chain_work m
  exact ⟨c, h1, by rw [h2]⟩

/-- C92: the same rules in the opposite order take two passes, however many they are. -/
theorem C92_order (n : Nat) (hn : 2 ≤ n) :
    (chainUp n).productions.Perm (chainDown n).productions ∧ ∃ c, (chainUp n).terminatesWork = some (false, 2, c) := by
  obtain ⟨m, rfl⟩ : ∃ m, n = m + 2 := ⟨n - 2, by omega⟩
  exact ⟨((downFrom_perm _).symm.cons _), up_work m⟩

end Bnf.Props
