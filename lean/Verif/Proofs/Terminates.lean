import Verif.Model.Generate
import Verif.Spec.Generate

/-! # `terminates` decides productivity -/

set_option autoImplicit false

namespace Bnf
open Spec

theorem Term.isNonterminal_iff (t : Term) : t.isNonterminal = true ↔ ∃ n, t = .nonterminal n := by
  cases t <;> simp [Term.isNonterminal]

theorem expr_terminates_some (e : Expression) (rules : List Term) :
    e.terminates (some rules) = true ↔ ∀ n, Term.nonterminal n ∈ e.terms → Term.nonterminal n ∈ rules := by
  unfold Expression.terminates
  split
  · rename_i h
    simp only [true_iff]
    intro n hn
    simp at h
    have := h _ hn
    simp [Term.isNonterminal] at this
  · simp only [List.all_eq_true, List.mem_filter, Term.isNonterminal_iff, List.contains_iff_mem]
    constructor
    · intro h n hn; exact h _ ⟨hn, n, rfl⟩
    · rintro h t ⟨ht, n, rfl⟩; exact h n ht

theorem expr_terminates_none (e : Expression) :
    e.terminates none = true ↔ ∀ n, Term.nonterminal n ∉ e.terms := by
  unfold Expression.terminates
  split
  · rename_i h
    simp only [true_iff]
    intro n hn
    simp at h
    have := h _ hn
    simp [Term.isNonterminal] at this
  · rename_i h
    simp at h
    obtain ⟨t, ht, hn⟩ := h
    obtain ⟨n, rfl⟩ := (Term.isNonterminal_iff _).1 hn
    simp only [Bool.false_eq_true, false_iff]
    intro h'; exact h' n ht

theorem hasTerm_some (p : Production) (rules : List Term) :
    p.hasTerminatingExpression (some rules) = true ↔
      ∃ e ∈ p.rhs, ∀ n, Term.nonterminal n ∈ e.terms → Term.nonterminal n ∈ rules := by
  simp [Production.hasTerminatingExpression, expr_terminates_some]

theorem hasTerm_none (p : Production) :
    p.hasTerminatingExpression none = true ↔ ∃ e ∈ p.rhs, ∀ n, Term.nonterminal n ∉ e.terms := by
  simp [Production.hasTerminatingExpression, expr_terminates_none]

theorem mem_initialRules (ps : List Production) (t : Term) :
    t ∈ initialRules ps ↔ ∃ p ∈ ps, p.lhs = t ∧ p.hasTerminatingExpression none = true := by
  induction ps with
  | nil => simp [initialRules]
  | cons p ps ih =>
    unfold initialRules
    split
    · rename_i h
      simp only [List.mem_cons, ih]
      constructor
      · rintro (rfl | ⟨q, hq, h1, h2⟩)
        · exact ⟨p, .inl rfl, rfl, h⟩
        · exact ⟨q, .inr hq, h1, h2⟩
      · rintro ⟨q, rfl | hq, h1, h2⟩
        · exact .inl h1.symm
        · exact .inr ⟨q, hq, h1, h2⟩
    · rename_i h
      rw [ih]
      constructor
      · rintro ⟨q, hq, h1⟩; exact ⟨q, by simp [hq], h1⟩
      · rintro ⟨q, hq, h1, h2⟩
        rcases List.mem_cons.1 hq with rfl | hq
        · exact absurd h2 h
        · exact ⟨q, hq, h1, h2⟩

/-- The term derives some string. -/
def Productive (g : Grammar) (t : Term) : Prop := ∃ w, Derives g t w

theorem forest_of_productive {g : Grammar} : ∀ (ts : List Term), (∀ n, Term.nonterminal n ∈ ts → Productive g (.nonterminal n)) →
    ∃ ns, IsForest g ts ns
  | [], _ => ⟨[], .nil⟩
  | .terminal s :: ts, h => by
    obtain ⟨ns, h'⟩ := forest_of_productive ts (fun n hn => h n (by simp [hn]))
    exact ⟨_, .terminal h'⟩
  | .nonterminal n :: ts, h => by
    obtain ⟨ns, h'⟩ := forest_of_productive ts (fun n hn => h n (by simp [hn]))
    obtain ⟨w, t, ⟨hr, ⟨e, ha, hf⟩, _⟩⟩ := h n (by simp)
    rw [hr] at ha
    exact ⟨_, .nonterminal ha hf h'⟩

theorem productive_of_alt {g : Grammar} {p : Production} (hp : p ∈ g.productions) {e : Expression} (he : e ∈ p.rhs)
    (h : ∀ n, Term.nonterminal n ∈ e.terms → Productive g (.nonterminal n)) : Productive g p.lhs := by
  obtain ⟨ns, hf⟩ := forest_of_productive e.terms h
  exact ⟨_, ⟨p.lhs, ns⟩, rfl, ⟨e, ⟨p, hp, rfl, he⟩, hf⟩, rfl⟩

theorem productive_of_closed {g : Grammar} {rules : List Term}
    (h : ∀ p ∈ g.productions, p.hasTerminatingExpression (some rules) = true → p.lhs ∈ rules) {t : Term} (hp : Productive g t) :
    t ∈ rules := by
  have key : ∀ {ts ns}, IsForest g ts ns → ∀ n, Term.nonterminal n ∈ ts → Term.nonterminal n ∈ rules := by
    intro ts ns hf
    induction hf with
    | nil => simp
    | terminal _ ih => intro n hn; exact ih n (by simpa using hn)
    | nonterminal ha _ _ ih1 ih2 =>
      intro n hn
      rcases List.mem_cons.1 hn with hn | hn
      · obtain ⟨p, hp, hl, he⟩ := ha
        rw [hn, ← hl]
        exact h p hp ((hasTerm_some _ _).2 ⟨_, he, ih1⟩)
      · exact ih2 n hn
  obtain ⟨w, t', hr, ⟨e, ⟨p, hp, hl, he⟩, hf⟩, _⟩ := hp
  rw [← hr, ← hl]
  exact h p hp ((hasTerm_some _ _).2 ⟨_, he, key hf⟩)

theorem pass_none {g : Grammar} {start : Term} : ∀ {ps : List Production} {rules : List Term} {b : Bool}, (∀ p ∈ ps, p ∈ g.productions) →
    (∀ t ∈ rules, Productive g t) → terminatesPass start ps rules b = none → Productive g start
  | [], _, _, _, _, h => by simp [terminatesPass] at h
  | p :: ps, rules, b, hps, hr, h => by
    unfold terminatesPass at h
    have hps' : ∀ q ∈ ps, q ∈ g.productions := fun q hq => hps q (by simp [hq])
    split at h
    · exact pass_none hps' hr h
    · split at h
      · rename_i ht
        obtain ⟨e, he, hn⟩ := (hasTerm_some _ _).1 ht
        have hpp : Productive g p.lhs := productive_of_alt (hps p (by simp)) he (fun n h' => hr _ (hn n h'))
        split at h
        · rename_i heq; rw [← heq]; exact hpp
        · exact pass_none hps' (by
            intro t ht; rcases List.mem_append.1 ht with ht | ht
            · exact hr t ht
            · simp at ht; rw [ht]; exact hpp) h
      · exact pass_none hps' hr h

theorem pass_some {g : Grammar} {start : Term} : ∀ {ps : List Production} {rules rules' : List Term} {b b' : Bool},
    (∀ p ∈ ps, p ∈ g.productions) → (∀ t ∈ rules, Productive g t) → terminatesPass start ps rules b = some (rules', b') →
    (∀ t ∈ rules', Productive g t) ∧ (∀ t ∈ rules, t ∈ rules') ∧
    (b' = false → b = false ∧ rules' = rules ∧ ∀ p ∈ ps, p.hasTerminatingExpression (some rules) = true → p.lhs ∈ rules) ∧
    (b' = true → b = false → ∃ p ∈ ps, p.lhs ∉ rules ∧ p.lhs ∈ rules')
  | [], rules, rules', b, b', _, hr, h => by
    simp only [terminatesPass, Option.some.injEq, Prod.mk.injEq] at h
    obtain ⟨rfl, rfl⟩ := h
    refine ⟨hr, fun _ h => h, fun h => ⟨h, rfl, by simp⟩, fun h1 h2 => by simp [h1] at h2⟩
  | p :: ps, rules, rules', b, b', hps, hr, h => by
    unfold terminatesPass at h
    have hps' : ∀ q ∈ ps, q ∈ g.productions := fun q hq => hps q (by simp [hq])
    split at h
    · rename_i hm
      obtain ⟨h1, h2, h3, h4⟩ := pass_some hps' hr h
      refine ⟨h1, h2, fun hb => ?_, fun hb hb' => ?_⟩
      · obtain ⟨a1, a2, a3⟩ := h3 hb
        refine ⟨a1, a2, fun q hq hq' => ?_⟩
        rcases List.mem_cons.1 hq with rfl | hq
        · simpa using hm
        · exact a3 q hq hq'
      · obtain ⟨q, hq, h5⟩ := h4 hb hb'; exact ⟨q, by simp [hq], h5⟩
    · rename_i hm
      split at h
      · rename_i ht
        obtain ⟨e, he, hn⟩ := (hasTerm_some _ _).1 ht
        have hpp : Productive g p.lhs := productive_of_alt (hps p (by simp)) he (fun n h' => hr _ (hn n h'))
        split at h
        · cases h
        · obtain ⟨h1, h2, h3, h4⟩ := pass_some hps' (by
            intro t ht; rcases List.mem_append.1 ht with ht | ht
            · exact hr t ht
            · simp at ht; rw [ht]; exact hpp) h
          refine ⟨h1, fun t ht => h2 t (by simp [ht]), fun hb => ?_, fun _ _ => ⟨p, by simp, by simpa using hm, h2 _ (by simp)⟩⟩
          simp at h3; simp [hb] at h3
      · rename_i ht
        obtain ⟨h1, h2, h3, h4⟩ := pass_some hps' hr h
        refine ⟨h1, h2, fun hb => ?_, fun hb hb' => ?_⟩
        · obtain ⟨a1, a2, a3⟩ := h3 hb
          refine ⟨a1, a2, fun q hq hq' => ?_⟩
          rcases List.mem_cons.1 hq with rfl | hq
          · exact absurd hq' ht
          · exact a3 q hq hq'
        · obtain ⟨q, hq, h5⟩ := h4 hb hb'; exact ⟨q, by simp [hq], h5⟩

/-- Productions not marked yet. -/
def unmarked (ps : List Production) (rules : List Term) : Nat := (ps.filter fun p => !rules.contains p.lhs).length

theorem unmarked_lt {ps : List Production} {rules rules' : List Term} (hsub : ∀ t ∈ rules, t ∈ rules')
    (h : ∃ p ∈ ps, p.lhs ∉ rules ∧ p.lhs ∈ rules') : unmarked ps rules' < unmarked ps rules := by
  obtain ⟨p, hp, h1, h2⟩ := h
  obtain ⟨l1, l2, rfl⟩ := List.append_of_mem hp
  have hle : ∀ l : List Production, unmarked l rules' ≤ unmarked l rules := by
    intro l
    unfold unmarked
    rw [← List.countP_eq_length_filter, ← List.countP_eq_length_filter]
    apply List.countP_mono_left
    intro x _ hx
    simp at hx ⊢
    exact fun h => hx (hsub _ h)
  have e : ∀ r, unmarked (l1 ++ p :: l2) r = unmarked l1 r + ((if p.lhs ∈ r then 0 else 1) + unmarked l2 r) := by
    intro r
    unfold unmarked
    rw [List.filter_append, List.length_append, List.filter_cons]
    by_cases hm : p.lhs ∈ r <;> simp [hm, Nat.add_comm]
  rw [e, e, if_pos h2, if_neg h1]
  have := hle l1
  have := hle l2
  omega

theorem loop_spec {g : Grammar} {start : Term} : ∀ (n : Nat) (rules : List Term), (∀ t ∈ rules, Productive g t) →
    unmarked g.productions rules < n →
    ∃ b, terminatesLoop start g.productions n rules = some b ∧ (b = true ↔ Productive g start)
  | 0, _, _, h => by omega
  | n + 1, rules, hr, h => by
    unfold terminatesLoop
    cases hp : terminatesPass start g.productions rules false with
    | none => exact ⟨true, rfl, by simpa using pass_none (fun _ h => h) hr hp⟩
    | some x =>
      obtain ⟨rules', b⟩ := x
      obtain ⟨h1, h2, h3, h4⟩ := pass_some (fun _ h => h) hr hp
      cases b with
      | true =>
        have := unmarked_lt h2 (h4 rfl rfl)
        exact loop_spec n rules' h1 (by omega)
      | false =>
        obtain ⟨_, rfl, h5⟩ := h3 rfl
        refine ⟨_, rfl, ?_⟩
        rw [List.contains_iff_mem]
        exact ⟨h1 _, productive_of_closed h5⟩

theorem terminates_spec (g : Grammar) :
    ∃ b, g.terminates = some b ∧ (b = true ↔ g.productions = [] ∨ ∃ S, g.startingTerm = some S ∧ Productive g S) := by
  unfold Grammar.terminates
  cases hs : g.startingTerm with
  | none =>
    refine ⟨true, rfl, ?_⟩
    simp
    unfold Grammar.startingTerm at hs
    cases hp : g.productions with
    | nil => rfl
    | cons p ps => simp [hp] at hs
  | some S =>
    have hne : g.productions ≠ [] := by
      intro h; simp [Grammar.startingTerm, h] at hs
    have hinit : ∀ t ∈ initialRules g.productions, Productive g t := by
      intro t ht
      obtain ⟨p, hp, rfl, h⟩ := (mem_initialRules _ _).1 ht
      obtain ⟨e, he, hn⟩ := (hasTerm_none _).1 h
      exact productive_of_alt hp he (fun n h => absurd h (hn n))
    simp only [hne, false_or, Option.some.injEq, exists_eq_left']
    split
    · rename_i he
      refine ⟨false, rfl, by simp, fun hp => ?_⟩
      have he' : initialRules g.productions = [] := by simpa using he
      have := productive_of_closed (g := g) (rules := []) (fun p hp h => by
        rw [← he', mem_initialRules]
        refine ⟨p, hp, rfl, (hasTerm_none _).2 ?_⟩
        obtain ⟨e, h1, h2⟩ := (hasTerm_some _ _).1 h
        exact ⟨e, h1, fun n hn => by simpa using h2 n hn⟩) hp
      simp at this
    · apply loop_spec _ _ hinit
      unfold unmarked
      have := List.length_filter_le (fun p => !(initialRules g.productions).contains p.lhs) g.productions
      omega

end Bnf
