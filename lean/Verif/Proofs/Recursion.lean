import Verif.Proofs.Work

/-! Left- and right-recursive lists, as examples of the amount of work. -/

set_option autoImplicit false

namespace Bnf
open Spec

/-- `<s> ::= 'a' <s> | ''`. -/
def gRight : Grammar := ⟨[⟨.nonterminal ['s'], [⟨[.terminal ['a'], .nonterminal ['s']]⟩, ⟨[.terminal []]⟩]⟩]⟩

/-- `<s> ::= <s> 'a' | ''`. -/
def gLeft : Grammar := ⟨[⟨.nonterminal ['s'], [⟨[.nonterminal ['s'], .terminal ['a']]⟩, ⟨[.terminal []]⟩]⟩]⟩

def rightKids : Nat → List ParseTreeNode
  | 0 => [.terminal []]
  | n + 1 => [.terminal ['a'], .nonterminal (.nonterminal ['s']) (rightKids n)]

def leftKids : Nat → List ParseTreeNode
  | 0 => [.terminal []]
  | n + 1 => [.nonterminal (.nonterminal ['s']) (leftKids n), .terminal ['a']]

theorem gRight_alts {l e} (h : HasAlt gRight l e) : l = .nonterminal ['s'] ∧
    (e = ⟨[.terminal ['a'], .nonterminal ['s']]⟩ ∨ e = ⟨[.terminal []]⟩) := by
  obtain ⟨p, hp, rfl, he⟩ := h
  simp only [gRight, List.mem_singleton] at hp
  subst hp
  simpa using he

theorem gLeft_alts {l e} (h : HasAlt gLeft l e) : l = .nonterminal ['s'] ∧
    (e = ⟨[.nonterminal ['s'], .terminal ['a']]⟩ ∨ e = ⟨[.terminal []]⟩) := by
  obtain ⟨p, hp, rfl, he⟩ := h
  simp only [gLeft, List.mem_singleton] at hp
  subst hp
  simpa using he

theorem gRight_alt1 : HasAlt gRight (.nonterminal ['s']) ⟨[.terminal ['a'], .nonterminal ['s']]⟩ :=
  ⟨_, List.mem_cons_self, rfl, by simp⟩
theorem gRight_alt2 : HasAlt gRight (.nonterminal ['s']) ⟨[.terminal []]⟩ := ⟨_, List.mem_cons_self, rfl, by simp⟩
theorem gLeft_alt1 : HasAlt gLeft (.nonterminal ['s']) ⟨[.nonterminal ['s'], .terminal ['a']]⟩ :=
  ⟨_, List.mem_cons_self, rfl, by simp⟩
theorem gLeft_alt2 : HasAlt gLeft (.nonterminal ['s']) ⟨[.terminal []]⟩ := ⟨_, List.mem_cons_self, rfl, by simp⟩

theorem rightKids_forest (n : Nat) : ∃ e, HasAlt gRight (.nonterminal ['s']) e ∧ IsForest gRight e.terms (rightKids n) := by
  induction n with
  | zero => exact ⟨_, gRight_alt2, .terminal .nil⟩
  | succ n ih =>
    obtain ⟨e, h1, h2⟩ := ih
    exact ⟨_, gRight_alt1, .terminal (.nonterminal h1 h2 .nil)⟩

theorem leftKids_forest (n : Nat) : ∃ e, HasAlt gLeft (.nonterminal ['s']) e ∧ IsForest gLeft e.terms (leftKids n) := by
  induction n with
  | zero => exact ⟨_, gLeft_alt2, .terminal .nil⟩
  | succ n ih =>
    obtain ⟨e, h1, h2⟩ := ih
    exact ⟨_, gLeft_alt1, .nonterminal h1 h2 (.terminal .nil)⟩

theorem rightKids_yield (n : Nat) : Spec.yield (rightKids n) = List.replicate n 'a' := by
  induction n with
  | zero => rfl
  | succ n ih => simp [rightKids, Spec.yield, Spec.nodeYield, ih, List.replicate_succ]

theorem leftKids_yield (n : Nat) : Spec.yield (leftKids n) = List.replicate n 'a' := by
  induction n with
  | zero => rfl
  | succ n ih => simp [leftKids, Spec.yield, Spec.nodeYield, ih, List.replicate_succ']

theorem rightKids_nodes {ts ns} (h : IsForest gRight ts ns) :
    ∀ l kids, ParseTreeNode.nonterminal l kids ∈ ns → ∃ n, kids = rightKids n := by
  induction h with
  | nil => intro l kids h; simp at h
  | terminal _ ih =>
    intro l kids h
    simp only [List.mem_cons, reduceCtorEq, false_or] at h
    exact ih l kids h
  | @nonterminal n e kids0 ts ns ha hk _ ih1 ih2 =>
    intro l kids h
    rcases List.mem_cons.mp h with h | h
    · injection h with _ h
      subst h
      obtain ⟨_, rfl | rfl⟩ := gRight_alts ha
      · simp only at hk
        cases hk with
        | terminal h2 =>
          cases h2 with
          | nonterminal _ _ h3 =>
            cases h3
            obtain ⟨n, rfl⟩ := ih1 _ _ (List.mem_cons_of_mem _ List.mem_cons_self)
            exact ⟨n + 1, rfl⟩
      · simp only at hk
        cases hk with
        | terminal h2 => cases h2; exact ⟨0, rfl⟩
    · exact ih2 l kids h

theorem leftKids_nodes {ts ns} (h : IsForest gLeft ts ns) :
    ∀ l kids, ParseTreeNode.nonterminal l kids ∈ ns → ∃ n, kids = leftKids n := by
  induction h with
  | nil => intro l kids h; simp at h
  | terminal _ ih =>
    intro l kids h
    simp only [List.mem_cons, reduceCtorEq, false_or] at h
    exact ih l kids h
  | @nonterminal n e kids0 ts ns ha hk _ ih1 ih2 =>
    intro l kids h
    rcases List.mem_cons.mp h with h | h
    · injection h with _ h
      subst h
      obtain ⟨_, rfl | rfl⟩ := gLeft_alts ha
      · simp only at hk
        cases hk with
        | nonterminal _ _ h2 =>
          cases h2 with
          | terminal h3 =>
            cases h3
            obtain ⟨n, rfl⟩ := ih1 _ _ List.mem_cons_self
            exact ⟨n + 1, rfl⟩
      · simp only at hk
        cases hk with
        | terminal h2 => cases h2; exact ⟨0, rfl⟩
    · exact ih2 l kids h

theorem gRight_unambiguous : Unambiguous gRight := by
  rintro T w ⟨l, ns⟩ ⟨l', ns'⟩ ⟨h1, ⟨e, ha, hf⟩, hy⟩ ⟨h1', ⟨e', ha', hf'⟩, hy'⟩
  simp only at h1 h1' ha ha' hf hf' hy hy'
  subst h1 h1'
  obtain ⟨rfl, _⟩ := gRight_alts ha
  obtain ⟨n, rfl⟩ := rightKids_nodes (.nonterminal ha hf .nil) (.nonterminal ['s']) ns List.mem_cons_self
  obtain ⟨m, rfl⟩ := rightKids_nodes (.nonterminal ha' hf' .nil) (.nonterminal ['s']) ns' List.mem_cons_self
  rw [← hy', rightKids_yield, rightKids_yield] at hy
  have := congrArg List.length hy
  simp at this
  rw [this]

theorem gLeft_unambiguous : Unambiguous gLeft := by
  rintro T w ⟨l, ns⟩ ⟨l', ns'⟩ ⟨h1, ⟨e, ha, hf⟩, hy⟩ ⟨h1', ⟨e', ha', hf'⟩, hy'⟩
  simp only at h1 h1' ha ha' hf hf' hy hy'
  subst h1 h1'
  obtain ⟨rfl, _⟩ := gLeft_alts ha
  obtain ⟨n, rfl⟩ := leftKids_nodes (.nonterminal ha hf .nil) (.nonterminal ['s']) ns List.mem_cons_self
  obtain ⟨m, rfl⟩ := leftKids_nodes (.nonterminal ha' hf' .nil) (.nonterminal ['s']) ns' List.mem_cons_self
  rw [← hy', leftKids_yield, leftKids_yield] at hy
  have := congrArg List.length hy
  simp at this
  rw [this]

theorem gRight_productive : Productive gRight := by
  intro lhs e n ha hn
  obtain ⟨_, rfl | rfl⟩ := gRight_alts ha
  · simp at hn
    subst hn
    exact ⟨[], ⟨.nonterminal ['s'], [.terminal []]⟩, rfl, ⟨_, gRight_alt2, .terminal .nil⟩, rfl⟩
  · simp at hn

theorem gLeft_productive : Productive gLeft := by
  intro lhs e n ha hn
  obtain ⟨_, rfl | rfl⟩ := gLeft_alts ha
  · simp at hn
    subst hn
    exact ⟨[], ⟨.nonterminal ['s'], [.terminal []]⟩, rfl, ⟨_, gLeft_alt2, .terminal .nil⟩, rfl⟩
  · simp at hn

/-- In the left-recursive grammar nothing is expected except at the beginning. -/
theorem gLeft_expected {input u T} (h : Expected gLeft (.nonterminal ['s']) input u T) :
    u = [] ∧ T = .nonterminal ['s'] := by
  induction h with
  | start => exact ⟨rfl, rfl⟩
  | @step u l e pre n post ns r _ ha hts hf _ ih =>
    obtain ⟨rfl, rfl⟩ := ih
    obtain ⟨_, rfl | rfl⟩ := gLeft_alts ha
    · simp only at hts
      cases pre with
      | nil =>
        simp at hts
        cases hf
        simp [Spec.yield, hts.1]
      | cons a pre =>
        simp only [List.cons_append, List.cons.injEq] at hts
        cases pre with
        | nil => simp at hts
        | cons b pre => simp at hts
    · simp only at hts
      cases pre with
      | nil => simp at hts
      | cons a pre => simp at hts

/-- In the right-recursive grammar the nonterminal is expected after every prefix of a list. -/
theorem gRight_expected (n k : Nat) (h : k ≤ n) :
    Expected gRight (.nonterminal ['s']) (List.replicate n 'a') (List.replicate k 'a') (.nonterminal ['s']) := by
  induction k with
  | zero => exact .start
  | succ k ih =>
    have := Expected.step (pre := [.terminal ['a']]) (post := []) (ns := [.terminal ['a']]) (n := ['s'])
      (r := List.replicate (n - (k + 1)) 'a') (ih (by omega)) gRight_alt1 rfl (.terminal .nil) (by
        simp only [Spec.yield, Spec.nodeYield, List.append_nil]
        rw [← List.replicate_succ', List.replicate_append_replicate]
        congr 1; omega)
    simpa [Spec.yield, Spec.nodeYield, ← List.replicate_succ'] using this

theorem gRight_viable (n : Nat)
    (hfin : {x | Viable gRight (.nonterminal ['s']) (List.replicate n 'a') x}.Finite) :
    (n + 1) * (n + 2) / 2 ≤ {x | Viable gRight (.nonterminal ['s']) (List.replicate n 'a') x}.ncard := by
  let B : Finset ((_ : Nat) × Nat) := (Finset.range (n + 1)).sigma fun j => Finset.range (j + 1)
  have hB : B.card = (n + 1) * (n + 2) / 2 := by
    rw [Finset.card_sigma]
    simp only [Finset.card_range]
    exact sum_triangle _
  choose e he1 he2 using rightKids_forest
  let f : ((_ : Nat) × Nat) → Begun := fun p => ⟨List.replicate p.2 'a', .nonterminal ['s'], e (p.1 - p.2), rightKids (p.1 - p.2)⟩
  have hmem : ∀ p ∈ (B : Set _), f p ∈ {x | Viable gRight (.nonterminal ['s']) (List.replicate n 'a') x} := by
    rintro ⟨j, i⟩ hp
    simp only [B, Finset.mem_coe, Finset.mem_sigma, Finset.mem_range] at hp
    refine ⟨he1 _, gRight_expected n i (by omega), _, [], List.replicate (n - j) 'a', (List.append_nil _).symm, he2 _, ?_⟩
    simp only [f, rightKids_yield, List.replicate_append_replicate]
    congr 1; omega
  have hinj : Set.InjOn f (B : Set _) := by
    rintro ⟨j, i⟩ hp ⟨j', i'⟩ hp' h
    simp only [B, Finset.mem_coe, Finset.mem_sigma, Finset.mem_range] at hp hp'
    injection h with h1 _ _ h2
    have h1 := congrArg List.length h1
    have h2 := congrArg (fun x => (Spec.yield x).length) h2
    simp [rightKids_yield] at h1 h2
    subst h1
    have : j = j' := by omega
    rw [this]
  rw [← hB, ← Set.ncard_coe_finset]
  exact Set.ncard_le_ncard_of_injOn f hmem hinj hfin

end Bnf
