import Verif.Model.Passes
import Verif.Spec.Passes
import Verif.Proofs.Terminates
import Mathlib.Tactic.Ring
import Mathlib.Tactic.Linarith

/-! # How often `terminates` goes through the productions -/

set_option autoImplicit false

namespace Bnf
open Spec

/-! ## The counts do not change the result -/

theorem loopWork_fst (start : Term) (ps : List Production) : ∀ (n : Nat) (rules : List Term),
    (terminatesLoopWork start ps n rules).map Prod.fst = terminatesLoop start ps n rules
  | 0, _ => rfl
  | n + 1, rules => by
    unfold terminatesLoopWork terminatesLoop
    cases h : terminatesPass start ps rules false with
    | none => rfl
    | some x =>
      obtain ⟨rules', b⟩ := x
      cases b with
      | true =>
        simp only [Option.map_map]
        rw [← loopWork_fst start ps n rules']
        rfl
      | false => rfl

theorem terminatesWork_fst (g : Grammar) : g.terminatesWork.map Prod.fst = g.terminates := by
  unfold Grammar.terminatesWork Grammar.terminates
  cases g.startingTerm with
  | none => rfl
  | some start =>
    simp only
    split
    · rfl
    · exact loopWork_fst _ _ _ _

/-! ## Passes -/

theorem loopWork_passes {g : Grammar} {start : Term} {P : List Term}
    (hP : ∀ p ∈ g.productions, Productive g p.lhs → p.lhs ∈ P) : ∀ (n : Nat) (rules : List Term), (∀ t ∈ rules, Productive g t) →
    ∀ b k c, terminatesLoopWork start g.productions n rules = some (b, k, c) →
      k ≤ unmarked (P.map fun t => ⟨t, []⟩) rules + 1
  | 0, _, _, b, k, c, h => by cases h
  | n + 1, rules, hr, b, k, c, h => by
    unfold terminatesLoopWork at h
    cases hp : terminatesPass start g.productions rules false with
    | none =>
      rw [hp] at h
      simp only [Option.some.injEq, Prod.mk.injEq] at h
      omega
    | some x =>
      obtain ⟨rules', b'⟩ := x
      rw [hp] at h
      obtain ⟨h1, h2, h3, h4⟩ := pass_some (fun _ h => h) hr hp
      cases b' with
      | true =>
        simp only [Option.map_eq_some_iff] at h
        obtain ⟨⟨b1, k1, c1⟩, h5, h6⟩ := h
        simp only [Prod.mk.injEq] at h6
        have ih := loopWork_passes hP n rules' h1 _ _ _ h5
        obtain ⟨p, hp1, hp2, hp3⟩ := h4 rfl rfl
        have := unmarked_lt (ps := P.map fun t => ⟨t, []⟩) h2 ⟨⟨p.lhs, []⟩, List.mem_map.2 ⟨p.lhs, hP p hp1 (h1 _ hp3), rfl⟩, hp2, hp3⟩
        omega
      | false =>
        simp only [Option.some.injEq, Prod.mk.injEq] at h
        omega

theorem initialRules_productive {g : Grammar} : ∀ t ∈ initialRules g.productions, Productive g t := by
  intro t ht
  obtain ⟨p, hp, rfl, h⟩ := (mem_initialRules _ _).1 ht
  obtain ⟨e, he, hn⟩ := (hasTerm_none _).1 h
  exact productive_of_alt hp he (fun n h => absurd h (hn n))

theorem terminatesWork_passes {g : Grammar} {P : List Term} (hP : ∀ p ∈ g.productions, Productive g p.lhs → p.lhs ∈ P) {b : Bool}
    {k c : Nat} (h : g.terminatesWork = some (b, k, c)) : k ≤ P.length := by
  unfold Grammar.terminatesWork at h
  cases hs : g.startingTerm with
  | none =>
    rw [hs] at h
    simp only [Option.some.injEq, Prod.mk.injEq] at h
    omega
  | some start =>
    rw [hs] at h
    simp only at h
    split at h
    · simp only [Option.some.injEq, Prod.mk.injEq] at h
      omega
    · rename_i he
      have h1 := loopWork_passes hP _ _ initialRules_productive _ _ _ h
      cases hr : initialRules g.productions with
      | nil => rw [hr] at he; simp at he
      | cons t ts =>
        have ht : t ∈ initialRules g.productions := by rw [hr]; simp
        obtain ⟨p, hp, rfl, _⟩ := (mem_initialRules _ _).1 ht
        have h2 := unmarked_lt (ps := P.map fun t => ⟨t, []⟩) (rules := []) (rules' := initialRules g.productions) (by simp)
          ⟨⟨p.lhs, []⟩, List.mem_map.2 ⟨p.lhs, hP p hp (initialRules_productive _ ht), rfl⟩, by simp, ht⟩
        have h3 : unmarked (P.map fun t => ⟨t, []⟩) [] ≤ P.length := by
          unfold unmarked
          exact Nat.le_trans (List.length_filter_le _ _) (by simp)
        omega

/-! ## Comparisons -/

theorem vecContainsCost_le (t : Term) : ∀ l : List Term, vecContainsCost t l ≤ l.length
  | [] => by simp [vecContainsCost]
  | x :: xs => by
    unfold vecContainsCost
    have := vecContainsCost_le t xs
    split
    · simp
    · simp; omega

theorem nontermsCost_le (rules : List Term) : ∀ nts : List Term, nontermsCost rules nts ≤ nts.length * rules.length
  | [] => by simp [nontermsCost]
  | nt :: nts => by
    unfold nontermsCost
    have h1 := nontermsCost_le rules nts
    have h2 := vecContainsCost_le nt rules
    rw [List.length_cons, Nat.succ_mul]
    split <;> omega

theorem altsCost_le (rules : List Term) : ∀ es : List Expression, altsCost rules es ≤ occurrences es * rules.length
  | [] => by simp [altsCost]
  | e :: es => by
    unfold altsCost
    have h1 := altsCost_le rules es
    have h2 := nontermsCost_le rules (e.terms.filter Term.isNonterminal)
    simp only [occurrences, List.map_cons, List.sum_cons, Nat.add_mul, exprCost] at h1 ⊢
    split <;> omega

/-- Each rule on the list comes from a production of its own. -/
theorem initial_length (ps : List Production) : (initialRules ps).length + unmarked ps (initialRules ps) ≤ ps.length := by
  have key : ∀ (qs : List Production) (rules : List Term), (∀ t ∈ initialRules qs, t ∈ rules) →
      (initialRules qs).length + unmarked qs rules ≤ qs.length := by
    intro qs rules
    induction qs with
    | nil => simp [initialRules, unmarked]
    | cons p qs ih =>
      intro h
      unfold initialRules at h ⊢
      split at h
      · rename_i ht
        rw [if_pos ht]
        have h1 := ih (fun t h' => h t (by simp [h']))
        have h2 : p.lhs ∈ rules := h _ (by simp)
        have h3 : rules.contains p.lhs = true := by simpa using h2
        simp only [unmarked, List.filter_cons, h3, List.length_cons, Bool.not_true, Bool.false_eq_true, if_false] at h1 ⊢
        omega
      · rename_i ht
        rw [if_neg ht]
        have h1 := ih h
        simp only [unmarked, List.filter_cons, List.length_cons] at h1 ⊢
        split
        · simp only [List.length_cons]; omega
        · omega
  exact key ps _ (fun _ h => h)

/-- The list grows only when a production gets marked. -/
theorem pass_length {start : Term} {all : List Production} : ∀ {ps : List Production} {rules rules' : List Term} {b b' : Bool},
    (∀ p ∈ ps, p ∈ all) → rules.length + unmarked all rules ≤ all.length → terminatesPass start ps rules b = some (rules', b') →
    rules'.length + unmarked all rules' ≤ all.length
  | [], rules, rules', b, b', _, hr, h => by
    simp only [terminatesPass, Option.some.injEq, Prod.mk.injEq] at h
    rw [← h.1]; exact hr
  | p :: ps, rules, rules', b, b', hps, hr, h => by
    unfold terminatesPass at h
    have hps' : ∀ q ∈ ps, q ∈ all := fun q hq => hps q (by simp [hq])
    split at h
    · exact pass_length hps' hr h
    · rename_i hm
      split at h
      · split at h
        · cases h
        · have := unmarked_lt (ps := all) (rules := rules) (rules' := rules ++ [p.lhs]) (fun t ht => by simp [ht])
            ⟨p, hps p (by simp), by simpa using hm, by simp⟩
          exact pass_length hps' (by simp; omega) h
      · exact pass_length hps' hr h

theorem passCost_le {start : Term} {all : List Production} : ∀ {ps : List Production} {rules : List Term},
    (∀ p ∈ ps, p ∈ all) → rules.length + unmarked all rules ≤ all.length →
    passCost start ps rules ≤ (ps.length + allOccurrences ps) * all.length
  | [], rules, _, hr => by simp [passCost]
  | p :: ps, rules, hps, hr => by
    have hps' : ∀ q ∈ ps, q ∈ all := fun q hq => hps q (by simp [hq])
    have hlen : rules.length ≤ all.length := by omega
    have h1 : vecContainsCost p.lhs rules ≤ all.length := Nat.le_trans (vecContainsCost_le _ _) hlen
    have h2 : altsCost rules p.rhs ≤ occurrences p.rhs * all.length :=
      Nat.le_trans (altsCost_le _ _) (Nat.mul_le_mul_left _ hlen)
    have h3 := passCost_le (start := start) hps' hr
    have e : ((p :: ps).length + allOccurrences (p :: ps)) * all.length =
        all.length + occurrences p.rhs * all.length + (ps.length + allOccurrences ps) * all.length := by
      simp only [List.length_cons, allOccurrences, List.map_cons, List.sum_cons]
      simp only [Nat.add_mul, Nat.one_mul]
      omega
    rw [e]
    unfold passCost
    split
    · omega
    · rename_i hm
      split
      · split
        · omega
        · have := unmarked_lt (ps := all) (rules := rules) (rules' := rules ++ [p.lhs]) (fun t ht => by simp [ht])
            ⟨p, hps p (by simp), by simpa using hm, by simp⟩
          have := passCost_le (start := start) (rules := rules ++ [p.lhs]) hps' (by simp; omega)
          omega
      · omega

theorem loopWork_cost {start : Term} {all : List Production} : ∀ (n : Nat) (rules : List Term),
    rules.length + unmarked all rules ≤ all.length → ∀ b k c, terminatesLoopWork start all n rules = some (b, k, c) →
      c ≤ (k * (all.length + allOccurrences all) + 1) * all.length
  | 0, _, _, b, k, c, h => by cases h
  | n + 1, rules, hr, b, k, c, h => by
    unfold terminatesLoopWork at h
    have hc := passCost_le (start := start) (ps := all) (fun _ h => h) hr
    cases hp : terminatesPass start all rules false with
    | none =>
      rw [hp] at h
      simp only [Option.some.injEq, Prod.mk.injEq] at h
      obtain ⟨_, rfl, rfl⟩ := h
      rw [Nat.add_mul, Nat.one_mul]
      omega
    | some x =>
      obtain ⟨rules', b'⟩ := x
      rw [hp] at h
      have hl := pass_length (fun _ h => h) hr hp
      cases b' with
      | true =>
        simp only [Option.map_eq_some_iff] at h
        obtain ⟨⟨b1, k1, c1⟩, h5, h6⟩ := h
        simp only [Prod.mk.injEq] at h6
        have ih := loopWork_cost n rules' hl _ _ _ h5
        obtain ⟨_, rfl, rfl⟩ := h6
        rw [Nat.add_mul, Nat.one_mul] at ih ⊢
        rw [Nat.add_mul k1 1, Nat.one_mul, Nat.add_mul]
        omega
      | false =>
        simp only [Option.some.injEq, Prod.mk.injEq] at h
        obtain ⟨_, rfl, rfl⟩ := h
        have := vecContainsCost_le start rules'
        rw [Nat.add_mul, Nat.one_mul, Nat.one_mul]
        omega

theorem terminatesWork_cost {g : Grammar} {b : Bool} {k c : Nat} (h : g.terminatesWork = some (b, k, c)) :
    c ≤ (k * (g.productions.length + allOccurrences g.productions) + 1) * g.productions.length := by
  unfold Grammar.terminatesWork at h
  cases hs : g.startingTerm with
  | none =>
    rw [hs] at h
    simp only [Option.some.injEq, Prod.mk.injEq] at h
    omega
  | some start =>
    rw [hs] at h
    simp only at h
    split at h
    · simp only [Option.some.injEq, Prod.mk.injEq] at h
      omega
    · exact loopWork_cost _ _ (initial_length _) _ _ _ h

/-! ## A chain in the worst order -/

theorem link_inj {i j : Nat} (h : link i = link j) : i = j := by
  simp only [link, Term.nonterminal.injEq] at h
  have := congrArg List.length h
  simpa using this

theorem link_ne_start (k : Nat) : link k ≠ .nonterminal ['s'] := by
  intro h
  simp only [link, Term.nonterminal.injEq, List.replicate_succ, List.cons.injEq] at h
  exact absurd h.1 (by decide)

theorem linkProd_lhs (k : Nat) : (linkProd k).lhs = link k := by cases k <;> rfl

/-- The rules known when the numbers below `j` are. -/
def known (j : Nat) : List Term := (List.range j).map link

theorem known_succ (j : Nat) : known (j + 1) = known j ++ [link j] := by simp [known, List.range_succ]

theorem known_length (j : Nat) : (known j).length = j := by simp [known]

theorem mem_known {j k : Nat} : link k ∈ known j ↔ k < j := by
  simp only [known, List.mem_map, List.mem_range]
  exact ⟨fun ⟨i, hi, h⟩ => link_inj h ▸ hi, fun h => ⟨k, h, rfl⟩⟩

theorem start_not_known (j : Nat) : Term.nonterminal ['s'] ∉ known j := by
  simp only [known, List.mem_map, not_exists, not_and]
  exact fun k _ h => link_ne_start k h

theorem vecContainsCost_absent {t : Term} : ∀ {l : List Term}, t ∉ l → vecContainsCost t l = l.length
  | [], _ => rfl
  | x :: xs, h => by
    simp only [List.mem_cons, not_or] at h
    rw [vecContainsCost, if_neg (fun e => h.1 e.symm), vecContainsCost_absent h.2, List.length_cons]

theorem vecContainsCost_append {t : Term} : ∀ {l r : List Term}, t ∉ l → vecContainsCost t (l ++ t :: r) = l.length + 1
  | [], _, _ => by simp [vecContainsCost]
  | x :: xs, r, h => by
    simp only [List.mem_cons, not_or] at h
    rw [List.cons_append, vecContainsCost, if_neg (fun e => h.1 e.symm), vecContainsCost_append h.2, List.length_cons]

theorem known_split {k j : Nat} (h : k < j) : ∃ r, known j = known k ++ link k :: r := by
  obtain ⟨d, rfl⟩ := Nat.exists_eq_add_of_lt h
  induction d with
  | zero => exact ⟨[], known_succ _⟩
  | succ d ih =>
    obtain ⟨r, hr⟩ := ih (by omega)
    refine ⟨r ++ [link (k + d + 1)], ?_⟩
    have : k + (d + 1) + 1 = (k + d + 1) + 1 := by omega
    rw [this, known_succ, hr]
    simp

theorem vecContainsCost_known {k j : Nat} (h : k < j) : vecContainsCost (link k) (known j) = k + 1 := by
  obtain ⟨r, hr⟩ := known_split h
  rw [hr, vecContainsCost_append (by rw [mem_known]; exact Nat.lt_irrefl _), known_length]

theorem link_isNonterminal (k : Nat) : (link k).isNonterminal = true := rfl

theorem linkProd_terminates {k j : Nat} : (linkProd (k + 1)).hasTerminatingExpression (some (known j)) = true ↔ k < j := by
  rw [hasTerm_some]
  simp only [linkProd, List.mem_singleton, exists_eq_left]
  constructor
  · intro h
    exact mem_known.1 (h (List.replicate (k + 1) 'a') rfl)
  · intro h n hn
    rw [hn]; exact mem_known.2 h

theorem altsCost_link (k j : Nat) : altsCost (known j) (linkProd (k + 1)).rhs = vecContainsCost (link k) (known j) := by
  simp only [linkProd, altsCost, exprCost, List.filter_cons, link_isNonterminal, if_true, List.filter_nil, nontermsCost]
  split <;> split <;> simp

/-- A pass over numbers already known finds them all. -/
theorem down_known {j : Nat} : ∀ {k : Nat} {b : Bool}, k ≤ j →
    terminatesPass (.nonterminal ['s']) (downFrom k) (known j) b = some (known j, b) ∧
    2 * passCost (.nonterminal ['s']) (downFrom k) (known j) = k * (k + 1)
  | 0, b, _ => by simp [downFrom, terminatesPass, passCost]
  | k + 1, b, h => by
    obtain ⟨h1, h2⟩ := down_known (j := j) (k := k) (b := b) (by omega)
    have hm : (known j).contains (linkProd k).lhs = true := by
      rw [linkProd_lhs, List.contains_iff_mem, mem_known]; omega
    refine ⟨?_, ?_⟩
    · rw [downFrom, terminatesPass, if_pos hm]; exact h1
    · rw [downFrom, passCost, if_pos hm, linkProd_lhs, vecContainsCost_known h, Nat.mul_add, h2]
      simp only [Nat.add_mul, Nat.mul_add]
      omega

/-- A pass over more numbers than are known adds one. -/
theorem down_more {j : Nat} (hj : 0 < j) : ∀ {k : Nat} {b : Bool},
    terminatesPass (.nonterminal ['s']) (downFrom (j + 1 + k)) (known j) b = some (known (j + 1), true) ∧
    2 * passCost (.nonterminal ['s']) (downFrom (j + 1 + k)) (known j) = 4 * j * (k + 1) + j * (j + 1)
  | 0, b => by
    obtain ⟨i, rfl⟩ : ∃ i, j = i + 1 := ⟨j - 1, by omega⟩
    have hm : ¬ (known (i + 1)).contains (linkProd (i + 1)).lhs = true := by
      rw [linkProd_lhs, List.contains_iff_mem, mem_known]; omega
    have ht : (linkProd (i + 1)).hasTerminatingExpression (some (known (i + 1))) = true := linkProd_terminates.2 (by omega)
    have hs : ¬ (linkProd (i + 1)).lhs = .nonterminal ['s'] := by rw [linkProd_lhs]; exact link_ne_start _
    obtain ⟨h1, h2⟩ := down_known (j := i + 1 + 1) (k := i + 1) (b := true) (by omega)
    refine ⟨?_, ?_⟩
    · rw [Nat.add_zero, downFrom, terminatesPass, if_neg hm, if_pos ht, if_neg hs, linkProd_lhs, ← known_succ]; exact h1
    · rw [Nat.add_zero, downFrom, passCost, if_neg hm, if_pos ht, if_neg hs, altsCost_link, linkProd_lhs, ← known_succ,
        vecContainsCost_absent (by rw [mem_known]; omega), vecContainsCost_known (by omega), known_length, Nat.mul_add, h2]
      ring
  | k + 1, b => by
    obtain ⟨h1, h2⟩ := down_more hj (k := k) (b := b)
    obtain ⟨i, hi⟩ : ∃ i, j + 1 + k = i + 1 := ⟨j + k, by omega⟩
    have hm : ¬ (known j).contains (linkProd (j + 1 + k)).lhs = true := by
      rw [linkProd_lhs, List.contains_iff_mem, mem_known]; omega
    have ht : ¬ (linkProd (j + 1 + k)).hasTerminatingExpression (some (known j)) = true := by
      rw [hi, linkProd_terminates]; omega
    have e : j + 1 + (k + 1) = (j + 1 + k) + 1 := by omega
    refine ⟨?_, ?_⟩
    · rw [e, downFrom, terminatesPass, if_neg hm, if_neg ht]; exact h1
    · rw [e, downFrom, passCost, if_neg hm, if_neg ht, linkProd_lhs, vecContainsCost_absent (by rw [mem_known]; omega), known_length, Nat.mul_add,
        h2, hi, altsCost_link, vecContainsCost_absent (by rw [mem_known]; omega), known_length]
      simp only [Nat.mul_add]
      omega

theorem barren_pass (ps : List Production) (j : Nat) (b : Bool) :
    terminatesPass (.nonterminal ['s']) (barren :: ps) (known j) b = terminatesPass (.nonterminal ['s']) ps (known j) b ∧
    passCost (.nonterminal ['s']) (barren :: ps) (known j) = 2 * j + passCost (.nonterminal ['s']) ps (known j) := by
  have hm : ¬ (known j).contains barren.lhs = true := by
    rw [List.contains_iff_mem]; exact start_not_known j
  have ht : ¬ barren.hasTerminatingExpression (some (known j)) = true := by
    rw [hasTerm_some]
    rintro ⟨e, he, h⟩
    simp only [barren, List.mem_singleton] at he
    subst he
    exact start_not_known j (h ['s'] (by simp))
  refine ⟨by rw [terminatesPass, if_neg hm, if_neg ht], ?_⟩
  rw [passCost, if_neg hm, if_neg ht]
  have h1 : vecContainsCost barren.lhs (known j) = j := by
    show vecContainsCost (.nonterminal ['s']) (known j) = j
    rw [vecContainsCost_absent (start_not_known j), known_length]
  have h2 : altsCost (known j) barren.rhs = j := by
    simp only [barren, altsCost, exprCost, List.filter_cons, Term.isNonterminal, if_true, List.filter_nil, nontermsCost,
      vecContainsCost_absent (start_not_known j), known_length]
    split <;> split <;> simp
  omega

theorem chain_pass {n j : Nat} (hj : 0 < j) (h : j < n) (b : Bool) :
    terminatesPass (.nonterminal ['s']) (chainDown n).productions (known j) b = some (known (j + 1), true) ∧
    2 * passCost (.nonterminal ['s']) (chainDown n).productions (known j) = 4 * j * (n - j + 1) + j * (j + 1) := by
  obtain ⟨k, rfl⟩ : ∃ k, n = j + 1 + k := ⟨n - j - 1, by omega⟩
  obtain ⟨h1, h2⟩ := down_more hj (k := k) (b := b)
  obtain ⟨h3, h4⟩ := barren_pass (downFrom (j + 1 + k)) j b
  refine ⟨h3.trans h1, ?_⟩
  show 2 * passCost (.nonterminal ['s']) (barren :: downFrom (j + 1 + k)) (known j) = _
  rw [h4, Nat.mul_add, h2]
  have : j + 1 + k - j + 1 = k + 2 := by omega
  rw [this]
  ring

theorem chain_last_pass (n : Nat) :
    terminatesPass (.nonterminal ['s']) (chainDown n).productions (known n) false = some (known n, false) ∧
    2 * passCost (.nonterminal ['s']) (chainDown n).productions (known n) = 4 * n + n * (n + 1) := by
  obtain ⟨h1, h2⟩ := down_known (j := n) (k := n) (b := false) (Nat.le_refl _)
  obtain ⟨h3, h4⟩ := barren_pass (downFrom n) n false
  refine ⟨h3.trans h1, ?_⟩
  show 2 * passCost (.nonterminal ['s']) (barren :: downFrom n) (known n) = _
  rw [h4, Nat.mul_add, h2]
  ring

theorem chain_loop : ∀ (k i fuel : Nat), k < fuel →
    ∃ c, terminatesLoopWork (.nonterminal ['s']) (chainDown (i + 1 + k)).productions fuel (known (i + 1)) = some (false, k + 1, c) ∧
      2 * c + i * (i + 1) * (i + 2 * k + 4) = (i + 1 + k) * (i + 2 + k) * (i + 3 + k) + 2 * (i + 1 + k)
  | 0, i, fuel, hf => by
    obtain ⟨f, rfl⟩ : ∃ f, fuel = f + 1 := ⟨fuel - 1, by omega⟩
    obtain ⟨h1, h2⟩ := chain_last_pass (i + 1)
    refine ⟨passCost (.nonterminal ['s']) (chainDown (i + 1)).productions (known (i + 1)) + vecContainsCost (.nonterminal ['s']) (known (i + 1)),
      ?_, ?_⟩
    · rw [terminatesLoopWork, Nat.add_zero, h1]
      simp only [Nat.zero_add]
      have : (known (i + 1)).contains (.nonterminal ['s']) = false := by
        simpa using start_not_known (i + 1)
      rw [this]
    · rw [vecContainsCost_absent (start_not_known _), known_length, Nat.mul_add, h2]
      ring
  | k + 1, i, fuel, hf => by
    obtain ⟨f, rfl⟩ : ∃ f, fuel = f + 1 := ⟨fuel - 1, by omega⟩
    obtain ⟨h1, h2⟩ := chain_pass (n := i + 1 + (k + 1)) (j := i + 1) (by omega) (by omega) false
    obtain ⟨c, h3, h4⟩ := chain_loop k (i + 1) f (by omega)
    have e : i + 1 + 1 + k = i + 1 + (k + 1) := by omega
    rw [e] at h3
    refine ⟨c + passCost (.nonterminal ['s']) (chainDown (i + 1 + (k + 1))).productions (known (i + 1)), ?_, ?_⟩
    · rw [terminatesLoopWork, h1]
      simp only [h3, Option.map_some]
    · have : i + 1 + (k + 1) - (i + 1) + 1 = k + 2 := by omega
      rw [this] at h2
      rw [Nat.mul_add, h2]
      nlinarith [h4]

theorem initialRules_down : ∀ n, initialRules (downFrom (n + 1)) = known 1
  | 0 => rfl
  | n + 1 => by
    rw [downFrom, initialRules, if_neg]
    · exact initialRules_down n
    · rw [hasTerm_none]
      rintro ⟨e, he, h⟩
      simp only [linkProd, List.mem_singleton] at he
      subst he
      exact h (List.replicate (n + 1) 'a') (by simp [link])

theorem chain_work (n : Nat) : ∃ c, (chainDown (n + 1)).terminatesWork = some (false, n + 1, c) ∧
    2 * c = (n + 1) * (n + 2) * (n + 3) + 2 * (n + 1) := by
  have hi : initialRules (chainDown (n + 1)).productions = known 1 := by
    show initialRules (barren :: downFrom (n + 1)) = known 1
    rw [initialRules, if_neg (by decide)]
    exact initialRules_down n
  obtain ⟨c, h1, h2⟩ := chain_loop n 0 ((chainDown (n + 1)).productions.length + 1) (by
    have : ∀ k, (downFrom k).length = k := by
      intro k
      induction k with
      | zero => rfl
      | succ k ih => simp [downFrom, ih]
    simp only [chainDown, List.length_cons, this]; omega)
  refine ⟨c, ?_, ?_⟩
  · unfold Grammar.terminatesWork
    simp only [hi, (show (chainDown (n + 1)).startingTerm = some (.nonterminal ['s']) from rfl)]
    rw [if_neg (by decide)]
    have e : 0 + 1 + n = n + 1 := by omega
    rw [e] at h1
    exact h1
  · nlinarith [h2]

/-! ## The same chain in the best order -/

theorem up_pass : ∀ (k j : Nat) (b : Bool), terminatesPass (.nonterminal ['s']) ((List.range' (j + 1) k).map linkProd) (known (j + 1)) b =
    some (known (j + 1 + k), b || k != 0)
  | 0, j, b => by simp [terminatesPass]
  | k + 1, j, b => by
    have hm : ¬ (known (j + 1)).contains (linkProd (j + 1)).lhs = true := by
      rw [linkProd_lhs, List.contains_iff_mem, mem_known]; omega
    have ht : (linkProd (j + 1)).hasTerminatingExpression (some (known (j + 1))) = true := linkProd_terminates.2 (by omega)
    have hs : ¬ (linkProd (j + 1)).lhs = .nonterminal ['s'] := by rw [linkProd_lhs]; exact link_ne_start _
    rw [List.range'_succ, List.map_cons, terminatesPass, if_neg hm, if_pos ht, if_neg hs, linkProd_lhs, ← known_succ, up_pass k (j + 1) true]
    have : j + 1 + 1 + k = j + 1 + (k + 1) := by omega
    rw [this]
    simp

theorem marked_pass {start : Term} {rules : List Term} {b : Bool} : ∀ {ps : List Production}, (∀ p ∈ ps, p.lhs ∈ rules) →
    terminatesPass start ps rules b = some (rules, b)
  | [], _ => rfl
  | p :: ps, h => by
    rw [terminatesPass, if_pos (by simpa using h p (by simp))]
    exact marked_pass (fun q hq => h q (by simp [hq]))

theorem initialRules_up (n : Nat) : initialRules ((List.range (n + 1)).map linkProd) = known 1 := by
  have key : ∀ k j, initialRules ((List.range' (j + 1) k).map linkProd) = [] := by
    intro k
    induction k with
    | zero => intro j; rfl
    | succ k ih =>
      intro j
      rw [List.range'_succ, List.map_cons, initialRules, if_neg]
      · exact ih (j + 1)
      · rw [hasTerm_none]
        rintro ⟨e, he, h⟩
        simp only [linkProd, List.mem_singleton] at he
        subst he
        exact h (List.replicate (j + 1) 'a') (by simp [link])
  rw [List.range_eq_range', List.range'_succ, List.map_cons, initialRules, if_pos (by decide), key]
  rfl

theorem up_work (n : Nat) : ∃ c, (chainUp (n + 2)).terminatesWork = some (false, 2, c) := by
  have hi : initialRules (chainUp (n + 2)).productions = known 1 := by
    show initialRules (barren :: (List.range (n + 2)).map linkProd) = known 1
    rw [initialRules, if_neg (by decide)]
    exact initialRules_up (n + 1)
  have h1 : terminatesPass (.nonterminal ['s']) (chainUp (n + 2)).productions (known 1) false = some (known (n + 2), true) := by
    show terminatesPass (.nonterminal ['s']) (barren :: (List.range (n + 2)).map linkProd) (known 1) false = _
    rw [(barren_pass _ 1 false).1, List.range_eq_range', List.range'_succ, List.map_cons, terminatesPass, if_pos (by decide)]
    have := up_pass (n + 1) 0 false
    simp only [Nat.zero_add] at this ⊢
    rw [this]
    have : 1 + (n + 1) = n + 2 := by omega
    rw [this]
    simp
  have h2 : terminatesPass (.nonterminal ['s']) (chainUp (n + 2)).productions (known (n + 2)) false = some (known (n + 2), false) := by
    show terminatesPass (.nonterminal ['s']) (barren :: (List.range (n + 2)).map linkProd) (known (n + 2)) false = _
    rw [(barren_pass _ (n + 2) false).1]
    apply marked_pass
    intro p hp
    simp only [List.mem_map, List.mem_range] at hp
    obtain ⟨k, hk, rfl⟩ := hp
    rw [linkProd_lhs, mem_known]; exact hk
  have h3 : (known (n + 2)).contains (.nonterminal ['s']) = false := by simpa using start_not_known (n + 2)
  have hl : (chainUp (n + 2)).productions.length + 1 = n + 2 + 1 + 1 := by simp [chainUp]
  unfold Grammar.terminatesWork
  simp only [hi, (show (chainUp (n + 2)).startingTerm = some (.nonterminal ['s']) from rfl)]
  rw [if_neg (by decide), hl, terminatesLoopWork, h1]
  simp only
  rw [terminatesLoopWork, h2]
  simp only [Option.map_some, h3]
  exact ⟨_, rfl⟩

theorem downFrom_perm : ∀ n, (downFrom n).Perm ((List.range n).map linkProd)
  | 0 => .refl _
  | n + 1 => by
    rw [List.range_succ, List.map_append, List.map_singleton, downFrom]
    exact ((downFrom_perm n).cons _).trans (List.perm_append_singleton _ _).symm

end Bnf
