import Verif.Proofs.Generate

/-! # The built-in strategies -/

set_option autoImplicit false

namespace Bnf
open Spec

variable {ρ Seed : Type} {R : Rng ρ Seed}

/-! ## Choosing an alternative -/

theorem getExpression_lt {p : Production} {i : Nat} (h : i < p.rhs.length) : getExpression p i = .expr p.rhs[i] := by
  simp [getExpression, h]

theorem randomIndex_pos (rng : ρ) {n : Nat} (h : 0 < n) : ∃ i rng', randomIndex R rng n = (some i, rng') ∧ i < n := by
  unfold randomIndex
  rw [if_neg (by omega)]
  exact ⟨_, _, rfl, R.index_lt rng n h⟩

theorem mem_indicesWhere {α : Type} (ok : Nat → α → Bool) : ∀ (as : List α) (i k : Nat),
    k ∈ indicesWhere ok as i ↔ ∃ j a, k = i + j ∧ as[j]? = some a ∧ ok k a = true
  | [], i, k => by simp [indicesWhere]
  | a :: as, i, k => by
    unfold indicesWhere
    have ih := mem_indicesWhere ok as (i + 1) k
    have step : (∃ j b, k = i + j ∧ (a :: as)[j]? = some b ∧ ok k b = true) ↔
        (k = i ∧ ok i a = true) ∨ ∃ j b, k = i + 1 + j ∧ as[j]? = some b ∧ ok k b = true := by
      constructor
      · rintro ⟨j, b, h1, h2, h3⟩
        cases j with
        | zero => simp at h1 h2; subst h1 h2; exact .inl ⟨rfl, h3⟩
        | succ j => exact .inr ⟨j, b, by omega, by simpa using h2, h3⟩
      · rintro (⟨rfl, h⟩ | ⟨j, b, h1, h2, h3⟩)
        · exact ⟨0, a, rfl, rfl, h⟩
        · exact ⟨j + 1, b, by omega, by simpa using h2, h3⟩
    rw [step, ← ih]
    split
    · rename_i h; simp only [List.mem_cons, h, and_true]
    · rename_i h; simp [h]

theorem pickFrom_spec (rng : ρ) {buf : List Nat} {n : Nat} (hn : 0 < n) (hb : ∀ i ∈ buf, i < n) :
    ∃ i rng', pickFrom R rng buf n = (some i, rng') ∧ i < n ∧ (buf ≠ [] → i ∈ buf) := by
  unfold pickFrom
  cases buf with
  | nil =>
    obtain ⟨i, rng', h1, h2⟩ := randomIndex_pos (R := R) rng hn
    exact ⟨i, rng', by simp [h1], h2, by simp⟩
  | cons b bs =>
    obtain ⟨k, rng', h1, h2⟩ := randomIndex_pos (R := R) rng (n := (b :: bs).length) (by simp)
    refine ⟨(b :: bs)[k], rng', ?_, hb _ (List.getElem_mem _), fun _ => List.getElem_mem _⟩
    simp only [List.isEmpty_cons, Bool.false_eq_true, if_false, h1]
    rw [List.getElem?_eq_getElem h2]

theorem randomWalk_chooses : AlwaysChooses (RandomWalk R) := by
  intro st a p d hne
  obtain ⟨i, rng', h1, h2⟩ := randomIndex_pos (R := R) st (n := p.rhs.length) (List.length_pos_iff.2 hne)
  refine ⟨p.rhs[i], List.getElem_mem _, ?_⟩
  simp only [RandomWalk, h1, getExpression_lt h2]

theorem expressionAllTerminals_iff (e : Expression) : expressionAllTerminals e = true ↔ AllTerminal e := by
  unfold expressionAllTerminals AllTerminal
  rw [List.all_eq_true]
  constructor
  · intro h t ht
    have := h t ht
    cases t with
    | terminal s => exact ⟨s, rfl⟩
    | nonterminal n => simp [Term.isNonterminal] at this
  · intro h t ht
    obtain ⟨s, rfl⟩ := h t ht
    rfl

theorem depthBounded_spec (m : Nat) (st : ρ) (a : Nat) (p : Production) (d : Nat) (hne : p.rhs ≠ []) :
    ∃ e ∈ p.rhs, ((DepthBounded R m).choose st a p d).1 = .expr e ∧
      (m ≤ d → (∃ e' ∈ p.rhs, AllTerminal e') → AllTerminal e) := by
  have hlen : 0 < p.rhs.length := List.length_pos_iff.2 hne
  by_cases hd : m ≤ d
  · have hmem := mem_indicesWhere (fun _ e => expressionAllTerminals e) p.rhs 0
    obtain ⟨i, rng', h1, h2, h3⟩ := pickFrom_spec (R := R) st (buf := indicesWhere (fun _ e => expressionAllTerminals e) p.rhs 0) hlen (by
      intro i hi
      obtain ⟨j, e, rfl, h, _⟩ := (hmem i).1 hi
      have := (List.getElem?_eq_some_iff.1 h).1
      omega)
    refine ⟨p.rhs[i], List.getElem_mem _, ?_, ?_⟩
    · simp only [DepthBounded, if_pos hd, h1, getExpression_lt h2]
    · rintro _ ⟨e', he', ht⟩
      obtain ⟨j, hj, rfl⟩ := List.mem_iff_getElem.1 he'
      have hjm : j ∈ indicesWhere (fun _ e => expressionAllTerminals e) p.rhs 0 :=
        (hmem j).2 ⟨j, p.rhs[j], by simp, by simp [hj], (expressionAllTerminals_iff _).2 ht⟩
      obtain ⟨j', e, hij, h, hk⟩ := (hmem i).1 (h3 (List.ne_nil_of_mem hjm))
      simp at hij; subst hij
      rw [List.getElem?_eq_getElem h2] at h
      injection h with h
      rw [h]; exact (expressionAllTerminals_iff _).1 hk
  · obtain ⟨i, rng', h1, h2, h3⟩ := pickFrom_spec (R := R) st (buf := List.range p.rhs.length) hlen (by simp)
    refine ⟨p.rhs[i], List.getElem_mem _, ?_, fun h => absurd h hd⟩
    simp only [DepthBounded, if_neg hd, h1, getExpression_lt h2]

theorem depthBounded_chooses (m : Nat) : AlwaysChooses (DepthBounded R m) := by
  intro st a p d hne
  obtain ⟨e, h1, h2, _⟩ := depthBounded_spec (R := R) m st a p d hne
  exact ⟨e, h1, h2⟩

theorem coverage_spec (seen : List (Nat × Nat)) (rng : ρ) (a : Nat) (p : Production) (d : Nat) (hne : p.rhs ≠ []) :
    ∃ i rng', ∃ h : i < p.rhs.length,
      (CoverageGuided R).choose (seen, rng) a p d = (.expr p.rhs[i], ((a, i) :: seen, rng')) ∧
      ((∃ j < p.rhs.length, (a, j) ∉ seen) → (a, i) ∉ seen) := by
  have hlen : 0 < p.rhs.length := List.length_pos_iff.2 hne
  obtain ⟨i, rng', h1, h2, h3⟩ := pickFrom_spec (R := R) rng
    (buf := (List.range p.rhs.length).filter fun i => !seen.contains (a, i)) hlen (by
      intro i hi; exact List.mem_range.1 (List.mem_filter.1 hi).1)
  refine ⟨i, rng', h2, ?_, ?_⟩
  · simp only [CoverageGuided, h1, getExpression_lt h2]
  · rintro ⟨j, hj, hs⟩
    have : j ∈ (List.range p.rhs.length).filter fun i => !seen.contains (a, i) := by
      rw [List.mem_filter]; exact ⟨List.mem_range.2 hj, by simpa using hs⟩
    have := (List.mem_filter.1 (h3 (List.ne_nil_of_mem this))).2
    simpa using this

theorem coverage_chooses : AlwaysChooses (CoverageGuided R) := by
  rintro ⟨seen, rng⟩ a p d hne
  obtain ⟨i, rng', h, h1, _⟩ := coverage_spec (R := R) seen rng a p d hne
  exact ⟨p.rhs[i], List.getElem_mem _, by rw [h1]⟩

/-! ## Weighted -/

theorem selectLoop_shift : ∀ (ws : List Nat) (r i k : Nat), selectLoop ws r (i + k) = (selectLoop ws r i).map (· + k)
  | [], r, i, k => rfl
  | w :: ws, r, i, k => by
    unfold selectLoop
    split
    · rfl
    · rw [Nat.add_right_comm]; exact selectLoop_shift ws (r - w) (i + 1) k

theorem selectLoop_some : ∀ (ws : List Nat) (r i : Nat), r < ws.sum → ∃ j, selectLoop ws r i = some j ∧ j < i + ws.length
  | [], r, i, h => by simp at h
  | w :: ws, r, i, h => by
    unfold selectLoop
    split
    · exact ⟨i, rfl, by simp⟩
    · rename_i hw
      obtain ⟨j, h1, h2⟩ := selectLoop_some ws (r - w) (i + 1) (by simp at h; omega)
      exact ⟨j, h1, by simp; omega⟩

/-- Which index a draw selects. -/
theorem selectLoop_eq : ∀ (ws : List Nat) (r i : Nat),
    selectLoop ws r 0 = some i ↔ i < ws.length ∧ (ws.take i).sum ≤ r ∧ r < (ws.take (i + 1)).sum
  | [], r, i => by simp [selectLoop]
  | w :: ws, r, i => by
    unfold selectLoop
    split
    · rename_i hw
      cases i with
      | zero => simp [hw]
      | succ i => simp; intro _; omega
    · rename_i hw
      have := selectLoop_shift ws (r - w) 0 1
      rw [this]
      cases i with
      | zero =>
        simp
        omega
      | succ i =>
        have ih := selectLoop_eq ws (r - w) i
        simp only [Option.map_eq_some_iff, Nat.add_right_cancel_iff, exists_eq_right, ih, List.length_cons, List.take_succ_cons,
          List.sum_cons]
        constructor <;> rintro ⟨h1, h2, h3⟩ <;> refine ⟨by omega, by omega, by omega⟩

theorem count_interval (n lo hi : Nat) (h : lo ≤ hi) (hn : hi ≤ n) :
    ((List.range n).filter fun r => lo ≤ r && r < hi).length = hi - lo := by
  rw [← List.countP_eq_length_filter]
  induction n generalizing lo hi with
  | zero => simp at hn; subst hn; simp at h; simp [h]
  | succ n ih =>
    rw [List.range_succ, List.countP_append]
    by_cases hi' : hi ≤ n
    · rw [ih lo hi h hi']
      simp; intro _; omega
    · have : hi = n + 1 := by omega
      subst this
      by_cases hlo : lo ≤ n
      · have e : List.countP (fun r => lo ≤ r && r < n + 1) (List.range n) = List.countP (fun r => lo ≤ r && r < n) (List.range n) := by
          apply List.countP_congr
          intro x hx
          have := List.mem_range.1 hx
          simp; omega
        rw [e, ih lo n hlo (Nat.le_refl _)]
        simp [hlo]; omega
      · have : lo = n + 1 := by omega
        subst this
        simp

theorem take_sum_le (ws : List Nat) (i : Nat) : (ws.take i).sum ≤ ws.sum := by
  conv => rhs; rw [← List.take_append_drop i ws, List.sum_append]
  omega

theorem selectLoop_count (ws : List Nat) (i : Nat) (h : i < ws.length) :
    ((List.range ws.sum).filter fun r => selectLoop ws r 0 == some i).length = ws[i] := by
  have e : (List.range ws.sum).filter (fun r => selectLoop ws r 0 == some i) =
      (List.range ws.sum).filter fun r => (ws.take i).sum ≤ r && r < (ws.take (i + 1)).sum := by
    apply List.filter_congr
    intro r _
    rw [Bool.eq_iff_iff]
    simp [selectLoop_eq, h]
  have h1 : (ws.take (i + 1)).sum = (ws.take i).sum + ws[i] := by
    rw [List.take_add_one, List.sum_append, List.getElem?_eq_getElem h]; simp
  rw [e, count_interval _ _ _ (by omega) (take_sum_le _ _)]
  omega

theorem fillWeights_eq (x y : Nat) (p : Production) :
    fillWeights x y p = p.rhs.map fun e => if p.lhs ∈ e.terms then x else y := by
  unfold fillWeights expressionContains
  apply List.map_congr_left
  intro e _
  by_cases h : p.lhs ∈ e.terms <;> simp [h]

theorem fillWeights_length (a b : Nat) (p : Production) : (fillWeights a b p).length = p.rhs.length := by
  simp [fillWeights]

/-- The total as computed, given that it does not panic. -/
theorem sumU32_le {checked : Bool} {ws : List Nat} {t : Nat} (h : sumU32 checked ws = some t) : t ≤ ws.sum := by
  unfold sumU32 at h
  split at h
  · injection h with h; omega
  · split at h
    · cases h
    · injection h with h; rw [← h]; exact Nat.mod_le _ _

theorem weighted_spec {checked : Bool} {a b : Nat} (rng : ρ) (addr : Nat) (p : Production) (d : Nat) {t : Nat}
    (hs : sumU32 checked (fillWeights a b p) = some t) (ht : t ≠ 0) :
    ∃ i, ∃ h : i < p.rhs.length, selectLoop (fillWeights a b p) (R.u32 rng t).1 0 = some i ∧
      (Weighted R checked a b).choose rng addr p d = (.expr p.rhs[i], (R.u32 rng t).2) := by
  have hlt := R.u32_lt rng t (by omega)
  obtain ⟨i, h1, h2⟩ := selectLoop_some (fillWeights a b p) (R.u32 rng t).1 0 (by have := sumU32_le hs; omega)
  rw [fillWeights_length] at h2
  refine ⟨i, by omega, h1, ?_⟩
  simp only [Weighted, weightedRandomIndex, hs, if_neg ht, h1]
  rw [getExpression_lt (by omega)]

theorem weighted_chooses_of {checked : Bool} {a b : Nat} (rng : ρ) (addr : Nat) (p : Production) (d : Nat) (hne : p.rhs ≠ [])
    (hs : checked = true → (fillWeights a b p).sum < 2 ^ 32) :
    ∃ e ∈ p.rhs, ((Weighted R checked a b).choose rng addr p d).1 = .expr e := by
  have : ∃ t, sumU32 checked (fillWeights a b p) = some t := by
    unfold sumU32
    split
    · exact ⟨_, rfl⟩
    · split
      · rename_i h1 h2; exact absurd (hs h2) h1
      · exact ⟨_, rfl⟩
  obtain ⟨t, ht⟩ := this
  by_cases h0 : t = 0
  · obtain ⟨i, rng', h1, h2⟩ := randomIndex_pos (R := R) rng (n := p.rhs.length) (List.length_pos_iff.2 hne)
    refine ⟨p.rhs[i], List.getElem_mem _, ?_⟩
    simp only [Weighted, weightedRandomIndex, ht, if_pos h0, h1, getExpression_lt h2]
  · obtain ⟨i, h, _, h2⟩ := weighted_spec (R := R) rng addr p d ht h0
    exact ⟨p.rhs[i], List.getElem_mem _, by rw [h2]⟩

/-! ## Strategies that always choose -/

theorem AlwaysChooses.neverPanics {σ : Type} {S : Strategy σ} (h : AlwaysChooses S) : NeverPanics S := by
  intro st a p d hne h'
  obtain ⟨e, _, he⟩ := h st a p d hne
  rw [he] at h'; cases h'

theorem getExpression_mem {p : Production} {i : Nat} {e : Expression} (h : getExpression p i = .expr e) : e ∈ p.rhs := by
  unfold getExpression at h
  split at h
  · rename_i h'; injection h with h; subst h; exact List.mem_of_getElem? h'
  · cases h

theorem randomWalk_faithful : Faithful (RandomWalk R) := by
  intro st a p d e st' h
  simp only [RandomWalk] at h
  split at h
  · simp at h
  · simp only [Prod.mk.injEq] at h; exact getExpression_mem h.1

theorem depthBounded_faithful (m : Nat) : Faithful (DepthBounded R m) := by
  intro st a p d e st' h
  simp only [DepthBounded] at h
  split at h
  · simp at h
  · simp only [Prod.mk.injEq] at h; exact getExpression_mem h.1

theorem coverage_faithful : Faithful (CoverageGuided R) := by
  intro st a p d e st' h
  simp only [CoverageGuided] at h
  split at h
  · simp at h
  · simp only [Prod.mk.injEq] at h; exact getExpression_mem h.1

theorem weighted_faithful (c : Bool) (x y : Nat) : Faithful (Weighted R c x y) := by
  intro st a p d e st' h
  simp only [Weighted] at h
  split at h
  · simp at h
  · simp only [Prod.mk.injEq] at h; exact getExpression_mem h.1

/-! ## CoverageGuided over many calls -/

/-- A run of calls (address, production, depth), with the answers. -/
inductive CoverageRun (R : Rng ρ Seed) : List (Nat × Production × Nat) → List Choice → List (Nat × Nat) × ρ → Prop
  | start (rng : ρ) : CoverageRun R [] [] ([], rng)
  | call {cs rs st a p d} : CoverageRun R cs rs st →
      CoverageRun R (cs ++ [(a, p, d)]) (rs ++ [((CoverageGuided R).choose st a p d).1]) ((CoverageGuided R).choose st a p d).2

/-- Indices below `n` seen at address `a`. -/
def seenCount (a n : Nat) (seen : List (Nat × Nat)) : Nat := ((List.range n).filter fun i => seen.contains (a, i)).length

theorem countP_range_insert (n i : Nat) (q : Nat → Bool) (hi : i < n) (hq : q i = false) :
    (List.range n).countP (fun j => j == i || q j) = (List.range n).countP q + 1 := by
  induction n with
  | zero => omega
  | succ n ih =>
    rw [List.range_succ, List.countP_append, List.countP_append]
    by_cases h : i < n
    · rw [ih h]
      have : (n == i) = false := by simp; omega
      simp only [List.countP_cons, List.countP_nil, this, Bool.false_or]; omega
    · have : i = n := by omega
      subst this
      have : (List.range i).countP (fun j => j == i || q j) = (List.range i).countP q := by
        apply List.countP_congr
        intro x hx
        have := List.mem_range.1 hx
        have : (x == i) = false := by simp; omega
        simp [this]
      rw [this]
      simp [hq]

theorem seenCount_new {a n i : Nat} {seen : List (Nat × Nat)} (hi : i < n) (hn : (a, i) ∉ seen) :
    seenCount a n ((a, i) :: seen) = seenCount a n seen + 1 := by
  unfold seenCount
  rw [← List.countP_eq_length_filter, ← List.countP_eq_length_filter,
    ← countP_range_insert n i (fun j => seen.contains (a, j)) hi (by simpa using hn)]
  apply List.countP_congr
  intro x _
  simp

theorem seenCount_mono {a n : Nat} {seen : List (Nat × Nat)} (x : Nat × Nat) : seenCount a n seen ≤ seenCount a n (x :: seen) := by
  unfold seenCount
  rw [← List.countP_eq_length_filter, ← List.countP_eq_length_filter]
  apply List.countP_mono_left
  intro y _ h
  simp at h ⊢
  exact .inr h

theorem seenCount_full {a n : Nat} {seen : List (Nat × Nat)} (h : n ≤ seenCount a n seen) : ∀ i < n, (a, i) ∈ seen := by
  unfold seenCount at h
  have h1 := List.filter_sublist (p := fun i => seen.contains (a, i)) (l := List.range n)
  have h2 := h1.eq_of_length_le (by simpa using h)
  intro i hi
  have : i ∈ (List.range n).filter fun i => seen.contains (a, i) := by rw [h2]; exact List.mem_range.2 hi
  simpa using (List.mem_filter.1 this).2

theorem coverageRun_inv {a : Nat} {p : Production} (hne : p.rhs ≠ []) {cs rs st} (h : CoverageRun R cs rs st)
    (hc : ∀ c ∈ cs, c.2.1.rhs ≠ [] ∧ (c.1 = a → c.2.1 = p)) :
    min (cs.countP fun c => c.1 == a) p.rhs.length ≤ seenCount a p.rhs.length st.1 ∧
    (∀ i, (a, i) ∈ st.1 → ∃ k : Nat, ∃ c e, cs[k]? = some c ∧ c.1 = a ∧ rs[k]? = some (.expr e) ∧ p.rhs[i]? = some e) ∧
    cs.length = rs.length := by
  induction h with
  | start => simp
  | @call cs rs st b q d _ ih =>
    obtain ⟨ih1, ih2, ih3⟩ := ih (fun c hc' => hc c (by simp [hc']))
    obtain ⟨hq, hqp⟩ := hc (b, q, d) (by simp)
    obtain ⟨seen, rng⟩ := st
    obtain ⟨i, rng', hi, h1, h2⟩ := coverage_spec (R := R) seen rng b q d hq
    rw [h1]
    refine ⟨?_, ?_, by simp [ih3]⟩
    · rw [List.countP_append]
      simp only at ih1 ⊢
      by_cases hb : b = a
      · have : q = p := hqp hb
        subst this
        subst hb
        by_cases hall : ∃ j < q.rhs.length, (b, j) ∉ seen
        · rw [seenCount_new hi (h2 hall)]
          simp; omega
        · have hfull : seenCount b q.rhs.length seen = q.rhs.length := by
            unfold seenCount
            rw [List.filter_eq_self.2]
            · simp
            · intro j hj
              have := List.mem_range.1 hj
              simp only [not_exists, not_and, Classical.not_not] at hall
              simpa using hall j this
          have := seenCount_mono (a := b) (n := q.rhs.length) (seen := seen) (b, i)
          omega
      · have := seenCount_mono (a := a) (n := p.rhs.length) (seen := seen) (b, i)
        simp [hb]; omega
    · intro j hj
      rcases List.mem_cons.1 hj with hj | hj
      · injection hj with hj1 hj2
        subst hj1 hj2
        have : q = p := hqp rfl
        subst this
        exact ⟨cs.length, (a, q, d), q.rhs[j], by simp, rfl, by simp [ih3], by simp⟩
      · obtain ⟨k, c, e, k1, k2, k3, k4⟩ := ih2 j hj
        have hk := (List.getElem?_eq_some_iff.1 k1).1
        exact ⟨k, c, e, by rw [List.getElem?_append_left hk]; exact k1, k2,
          by rw [List.getElem?_append_left (by omega)]; exact k3, k4⟩

theorem coverageRun_seen {a : Nat} {p : Production} (hne : p.rhs ≠ []) {cs rs st} (h : CoverageRun R cs rs st)
    (hc : ∀ c ∈ cs, c.2.1.rhs ≠ [] ∧ (c.1 = a → c.2.1 = p)) :
    ∀ k : Nat, ∀ c e, cs[k]? = some c → c.1 = a → rs[k]? = some (.expr e) → ∃ j : Nat, p.rhs[j]? = some e ∧ (a, j) ∈ st.1 := by
  induction h with
  | start => simp
  | @call cs rs st b q d hr ih =>
    have hc' : ∀ c ∈ cs, c.2.1.rhs ≠ [] ∧ (c.1 = a → c.2.1 = p) := fun c hc' => hc c (by simp [hc'])
    have hlen := (coverageRun_inv hne hr hc').2.2
    have ih := ih hc'
    obtain ⟨hq, hqp⟩ := hc (b, q, d) (by simp)
    obtain ⟨seen, rng⟩ := st
    obtain ⟨i, rng', hi, h1, h2⟩ := coverage_spec (R := R) seen rng b q d hq
    rw [h1]
    intro k c e hk hca hrk
    by_cases hlt : k < cs.length
    · rw [List.getElem?_append_left hlt] at hk
      rw [List.getElem?_append_left (by omega)] at hrk
      obtain ⟨j, h3, h4⟩ := ih k c e hk hca hrk
      exact ⟨j, h3, by simp [h4]⟩
    · have hke : k = cs.length := by
        have := (List.getElem?_eq_some_iff.1 hk).1
        simp at this; omega
      subst hke
      simp at hk
      subst hk
      rw [hlen] at hrk
      simp at hrk
      simp at hca
      have := hqp hca
      subst this
      subst hca
      exact ⟨i, by rw [← hrk]; simp, by simp⟩

/-! ## DepthBounded terminates -/

theorem evalTerms_noFuel {σ : Type} {trav : Str → σ → GenRes σ} : ∀ (ts : List Term) (r : Str) (st : σ),
    (∀ nt, Term.nonterminal nt ∈ ts → ∀ st, trav nt st ≠ .fuel) → evalTerms trav ts r st ≠ .fuel
  | [], r, st, _ => by simp [evalTerms]
  | .terminal t :: ts, r, st, h => by rw [evalTerms]; exact evalTerms_noFuel ts _ _ (fun nt hn => h nt (by simp [hn]))
  | .nonterminal nt :: ts, r, st, h => by
    rw [evalTerms]
    split
    · exact evalTerms_noFuel ts _ _ (fun nt hn => h nt (by simp [hn]))
    · simp
    · simp
    · rename_i h'; exact absurd h' (h nt (by simp) _)

/-- The callback that accepts everything. -/
def acceptAll (σ : Type) : Callback σ := fun st _ _ => (true, st)

/-- One level: if no alternative that can be chosen refers to a name that runs out of fuel, neither does this one. -/
theorem traverse_noFuel_step {σ : Type} {g : Grammar} {S : Strategy σ} {n : Nat} {id : Str} {d : Nat} {st : σ}
    (h : ∀ a p e st', findProduction id g.productions 0 = some (a, p) → S.choose st a p d = (.expr e, st') →
      ∀ nt, Term.nonterminal nt ∈ e.terms → ∀ st, traverse g S (acceptAll σ) n nt (d + 1) st ≠ .fuel) :
    traverse g S (acceptAll σ) (n + 1) id d st ≠ .fuel := by
  cases hf : findProduction id g.productions 0 with
  | none => rw [traverse_undeclared hf]; simp
  | some x =>
    obtain ⟨a, p⟩ := x
    by_cases hn : productionHasNoChoice p = true
    · rw [traverse_noChoice hf hn]; simp
    · rw [traverse_choose hf hn]
      split
      · simp
      · simp
      · rename_i e st1 hc
        have := evalTerms_noFuel (trav := fun nt st => traverse g S (acceptAll σ) n nt (d + 1) st) e.terms [] st1 (h a p e st1 hf hc)
        split
        · simp [acceptAll]
        · exact this

theorem exists_bound {P : Str → Nat → Prop} (hmono : ∀ m i j, i ≤ j → P m i → P m j) :
    ∀ (l : List Str), (∀ m ∈ l, ∃ N, P m N) → ∃ N, ∀ m ∈ l, P m N
  | [], _ => ⟨0, by simp⟩
  | m :: l, h => by
    obtain ⟨N, hN⟩ := exists_bound hmono l (fun m hm => h m (by simp [hm]))
    obtain ⟨M, hM⟩ := h m (by simp)
    refine ⟨max N M, fun k hk => ?_⟩
    rcases List.mem_cons.1 hk with rfl | hk
    · exact hmono _ _ _ (Nat.le_max_right _ _) hM
    · exact hmono _ _ _ (Nat.le_max_left _ _) (hN k hk)

def Term.name : Term → Str
  | .terminal s => s
  | .nonterminal s => s

theorem choose_expr {S : Strategy ρ} {st st' : ρ} {a p d} {e e' : Expression} (h : S.choose st a p d = (.expr e, st'))
    (h' : (S.choose st a p d).1 = .expr e') : e' = e := by
  rw [h] at h'; injection h' with h'; exact h'.symm

theorem depthBounded_deep (g : Grammar) (m : Nat) (hwf : WellFounded fun y x => Stuck g x y) :
    ∀ id, ∃ N, ∀ d, m ≤ d → ∀ st, traverse g (DepthBounded R m) (acceptAll ρ) N id d st ≠ .fuel := by
  intro id
  induction id using hwf.induction with
  | _ id ih =>
    cases hf : findProduction id g.productions 0 with
    | none => exact ⟨1, fun d _ st => by rw [traverse_undeclared hf]; simp⟩
    | some x =>
      obtain ⟨a, p⟩ := x
      have hfirst := isFirst_of_find hf
      by_cases hex : ∃ e ∈ p.rhs, AllTerminal e
      · refine ⟨1, fun d hd st => traverse_noFuel_step fun a' p' e st' hf' hc nt hnt => ?_⟩
        rw [hf] at hf'; injection hf' with hf'; injection hf' with h1 h2; subst h1 h2
        obtain ⟨e', _, h3, h4⟩ := depthBounded_spec (R := R) m st a p d (by
          obtain ⟨e, he, _⟩ := hex; exact List.ne_nil_of_mem he)
        have := choose_expr hc h3
        subst this
        obtain ⟨s, hs⟩ := h4 hd hex _ hnt
        cases hs
      · have hstuck : ∀ k ∈ (p.rhs.flatMap fun e => e.terms).filterMap (fun t => match t with | .nonterminal k => some k | _ => none),
            Stuck g id k := by
          intro k hk
          obtain ⟨t, ht, htk⟩ := List.mem_filterMap.1 hk
          obtain ⟨e, he, hte⟩ := List.mem_flatMap.1 ht
          cases t with
          | terminal s => simp at htk
          | nonterminal k' =>
            simp at htk; subst htk
            exact ⟨p, hfirst, fun e he ha => hex ⟨e, he, ha⟩, e, he, hte⟩
        obtain ⟨N, hN⟩ := exists_bound
          (P := fun k N => ∀ d, m ≤ d → ∀ st, traverse g (DepthBounded R m) (acceptAll ρ) N k d st ≠ .fuel)
          (fun k i j hij h d hd st => by rw [traverse_more hij (h d hd st)]; exact h d hd st) _
          (fun k hk => ih k (hstuck k hk))
        refine ⟨N + 1, fun d hd st => traverse_noFuel_step fun a' p' e st' hf' hc nt hnt => ?_⟩
        rw [hf] at hf'; injection hf' with hf'; injection hf' with h1 h2; subst h1 h2
        refine hN nt ?_ (d + 1) (by omega)
        exact List.mem_filterMap.2 ⟨.nonterminal nt, List.mem_flatMap.2 ⟨e, depthBounded_faithful m _ _ _ _ _ _ hc, hnt⟩, rfl⟩

theorem depthBounded_uniform (g : Grammar) (m : Nat) (hwf : WellFounded fun y x => Stuck g x y) :
    ∃ N, ∀ id d, m ≤ d → ∀ st, traverse g (DepthBounded R m) (acceptAll ρ) N id d st ≠ .fuel := by
  obtain ⟨N, hN⟩ := exists_bound
    (P := fun k N => ∀ d, m ≤ d → ∀ st, traverse g (DepthBounded R m) (acceptAll ρ) N k d st ≠ .fuel)
    (fun k i j hij h d hd st => by rw [traverse_more hij (h d hd st)]; exact h d hd st) (g.productions.map fun p => p.lhs.name)
    (fun k _ => depthBounded_deep g m hwf k)
  refine ⟨N + 1, fun id d hd st => ?_⟩
  cases hf : findProduction id g.productions 0 with
  | none => rw [traverse_undeclared hf]; simp
  | some x =>
    obtain ⟨a, p⟩ := x
    obtain ⟨b, af, h1, h2, _⟩ := findProduction_some hf
    have := hN id (List.mem_map.2 ⟨p, by rw [h1]; simp, by rw [h2]; rfl⟩) d hd st
    rw [traverse_more (Nat.le_succ N) this]; exact this

theorem depthBounded_shallow {g : Grammar} {m N : Nat}
    (h : ∀ id d, m ≤ d → ∀ st, traverse g (DepthBounded R m) (acceptAll ρ) N id d st ≠ .fuel) :
    ∀ k id d, m ≤ d + k → ∀ st, traverse g (DepthBounded R m) (acceptAll ρ) (N + k) id d st ≠ .fuel
  | 0, id, d, hd, st => h id d (by omega) st
  | k + 1, id, d, hd, st => traverse_noFuel_step fun _ _ _ _ _ _ nt _ st => depthBounded_shallow h k nt (d + 1) (by omega) st

end Bnf
