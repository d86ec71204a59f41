import Verif.Spec.Names
import Verif.Proofs.Normalize

/-! # The names generated for groups and optionals -/

set_option autoImplicit false

namespace Bnf
open Spec

/-- Numbers below `k` whose names are not in `D`. -/
def freeBelow (D : List Str) (k : Nat) : Nat := ((List.range k).filter fun j => anonName j ∉ D).length

theorem freeBelow_succ (D : List Str) (k : Nat) :
    freeBelow D (k + 1) = freeBelow D k + if anonName k ∈ D then 0 else 1 := by
  unfold freeBelow
  rw [List.range_succ, List.filter_append, List.length_append]
  by_cases h : anonName k ∈ D <;> simp [h]

theorem freeBelow_mono (D : List Str) {j k : Nat} (h : j ≤ k) : freeBelow D j ≤ freeBelow D k := by
  induction h with
  | refl => exact Nat.le_refl _
  | step _ ih => rw [freeBelow_succ]; omega

/-- `n` names were handed out. -/
structure NamesInv (D : List Str) (st : NormState) (n : Nat) : Prop where
  used : ∀ x, x ∈ st.used ↔ x ∈ D ∨ ∃ j, j < st.counter ∧ x = anonName j
  count : freeBelow D st.counter = n

theorem freshLoop_skips {used : List Str} : ∀ {n c x c'}, freshLoop used n c = some (x, c') →
    ∃ k, c ≤ k ∧ x = anonName k ∧ c' = k + 1 ∧ x ∉ used ∧ ∀ j, c ≤ j → j < k → anonName j ∈ used := by
  intro n
  induction n with
  | zero => intro c x c' h; cases h
  | succ n ih =>
    intro c x c' h
    simp only [freshLoop] at h
    split at h
    · rename_i hm
      obtain ⟨k, h1, h2, h3, h4, h5⟩ := ih h
      refine ⟨k, by omega, h2, h3, h4, fun j hj hk => ?_⟩
      rcases Nat.eq_or_lt_of_le hj with rfl | hj
      · exact hm
      · exact h5 j hj hk
    · rename_i hm
      simp only [Option.some.injEq, Prod.mk.injEq] at h
      obtain ⟨rfl, rfl⟩ := h
      exact ⟨c, Nat.le_refl _, rfl, rfl, hm, fun j h1 h2 => by omega⟩

theorem freeBelow_skip {D : List Str} {c k : Nat} (h : c ≤ k) (hs : ∀ j, c ≤ j → j < k → anonName j ∈ D) :
    freeBelow D k = freeBelow D c := by
  induction h with
  | refl => rfl
  | step h ih =>
    rename_i m
    rw [freeBelow_succ, ih fun j h1 h2 => hs j h1 (by omega), if_pos (hs m h (by omega)), Nat.add_zero]

theorem freshAnonName_names {D : List Str} {st st' : NormState} {x n} (hi : NamesInv D st n)
    (h : freshAnonName st = some (x, st')) : NamesInv D st' (n + 1) := by
  unfold freshAnonName at h
  split at h
  · cases h
  · rename_i nm c h0
    simp only [Option.some.injEq, Prod.mk.injEq] at h
    obtain ⟨rfl, rfl⟩ := h
    obtain ⟨k, h1, rfl, rfl, h4, h5⟩ := freshLoop_skips h0
    have hD : ∀ j, st.counter ≤ j → j < k → anonName j ∈ D := by
      intro j h1 h2
      rcases (hi.used _).mp (h5 j h1 h2) with h | ⟨i, hi, he⟩
      · exact h
      · have := anonName_inj he; omega
    have hk : anonName k ∉ D := fun h => h4 ((hi.used _).mpr (.inl h))
    refine ⟨fun x => ?_, ?_⟩
    · simp only [List.mem_cons, hi.used]
      constructor
      · rintro (rfl | h | ⟨j, hj, rfl⟩)
        · exact .inr ⟨k, by omega, rfl⟩
        · exact .inl h
        · exact .inr ⟨j, by omega, rfl⟩
      · rintro (h | ⟨j, hj, rfl⟩)
        · exact .inr (.inl h)
        · rcases Nat.lt_trichotomy j k with hlt | rfl | hgt
          · by_cases hc : j < st.counter
            · exact .inr (.inr ⟨j, hc, rfl⟩)
            · exact .inr (.inl (hD j (by omega) hlt))
          · exact .inl rfl
          · omega
    · simp only
      rw [freeBelow_succ, if_neg hk, freeBelow_skip h1 hD, hi.count]

theorem NamesInv.anon {D : List Str} {st : NormState} {n} (h : NamesInv D st n) (l) : NamesInv D { st with anon := l } n :=
  ⟨h.used, h.count⟩

mutual

theorem lowerTerm_names {D : List Str} : ∀ {t : ParsedTerm} {st t' st' n}, NamesInv D st n → lowerTerm t st = some (t', st') →
    NamesInv D st' (n + t.brackets)
  | .simple t, st, t', st', n, hi, h => by
    simp only [lowerTerm, Option.some.injEq, Prod.mk.injEq] at h
    obtain ⟨rfl, rfl⟩ := h
    simpa [ParsedTerm.brackets] using hi
  | .group as, st, t', st', n, hi, h => by
    simp only [lowerTerm] at h
    split at h
    · cases h
    · rename_i x st1 hf
      split at h
      · cases h
      · rename_i rhs st2 ha
        simp only [Option.some.injEq, Prod.mk.injEq] at h
        obtain ⟨rfl, rfl⟩ := h
        have := lowerAlts_names (freshAnonName_names hi hf) ha
        simp only [ParsedTerm.brackets]
        rw [show n + (1 + altsBrackets as) = n + 1 + altsBrackets as by omega]
        exact this.anon _
  | .optional as, st, t', st', n, hi, h => by
    simp only [lowerTerm] at h
    split at h
    · cases h
    · rename_i x st1 hf
      split at h
      · cases h
      · rename_i rhs st2 ha
        simp only [Option.some.injEq, Prod.mk.injEq] at h
        obtain ⟨rfl, rfl⟩ := h
        have := lowerAlts_names (freshAnonName_names hi hf) ha
        simp only [ParsedTerm.brackets]
        rw [show n + (1 + altsBrackets as) = n + 1 + altsBrackets as by omega]
        exact this.anon _

theorem lowerTerms_names {D : List Str} : ∀ {ts : List ParsedTerm} {st ts' st' n}, NamesInv D st n →
    lowerTerms ts st = some (ts', st') → NamesInv D st' (n + termsBrackets ts)
  | [], st, ts', st', n, hi, h => by
    simp only [lowerTerms, Option.some.injEq, Prod.mk.injEq] at h
    obtain ⟨rfl, rfl⟩ := h
    simpa [termsBrackets] using hi
  | t :: ts, st, ts', st', n, hi, h => by
    simp only [lowerTerms] at h
    split at h
    · cases h
    · rename_i t1 st1 h1
      split at h
      · cases h
      · rename_i ts1 st2 h2
        simp only [Option.some.injEq, Prod.mk.injEq] at h
        obtain ⟨rfl, rfl⟩ := h
        simp only [termsBrackets]
        rw [← Nat.add_assoc]
        exact lowerTerms_names (lowerTerm_names hi h1) h2

theorem lowerAlts_names {D : List Str} : ∀ {as : List (List ParsedTerm)} {st as' st' n}, NamesInv D st n →
    lowerAlts as st = some (as', st') → NamesInv D st' (n + altsBrackets as)
  | [], st, ts', st', n, hi, h => by
    simp only [lowerAlts, Option.some.injEq, Prod.mk.injEq] at h
    obtain ⟨rfl, rfl⟩ := h
    simpa [altsBrackets] using hi
  | t :: ts, st, ts', st', n, hi, h => by
    simp only [lowerAlts] at h
    split at h
    · cases h
    · rename_i t1 st1 h1
      split at h
      · cases h
      · rename_i ts1 st2 h2
        simp only [Option.some.injEq, Prod.mk.injEq] at h
        obtain ⟨rfl, rfl⟩ := h
        simp only [altsBrackets]
        rw [← Nat.add_assoc]
        exact lowerAlts_names (lowerTerms_names hi h1) h2

end

theorem lowerProds_names {D : List Str} {ps : ParsedGrammar} : ∀ {st ps' st' n}, NamesInv D st n →
    lowerProds ps st = some (ps', st') → NamesInv D st' (n + brackets ps) := by
  induction ps with
  | nil =>
    intro st ps' st' n hi h
    simp only [lowerProds, Option.some.injEq, Prod.mk.injEq] at h
    obtain ⟨rfl, rfl⟩ := h
    simpa [brackets] using hi
  | cons p ps ih =>
    intro st ps' st' n hi h
    simp only [lowerProds] at h
    split at h
    · cases h
    · rename_i t1 st1 h1
      split at h
      · cases h
      · rename_i ts1 st2 h2
        simp only [Option.some.injEq, Prod.mk.injEq] at h
        obtain ⟨rfl, rfl⟩ := h
        simp only [brackets]
        rw [← Nat.add_assoc]
        exact ih (lowerAlts_names hi h1) h2

theorem lowerProds_lhs {ps : ParsedGrammar} : ∀ {st ps' st'}, lowerProds ps st = some (ps', st') →
    ps'.map (·.lhs) = ps.map (fun p => Term.nonterminal p.lhs) := by
  induction ps with
  | nil =>
    intro st ps' st' h
    simp only [lowerProds, Option.some.injEq, Prod.mk.injEq] at h
    obtain ⟨rfl, rfl⟩ := h
    rfl
  | cons p ps ih =>
    intro st ps' st' h
    simp only [lowerProds] at h
    split at h
    · cases h
    · rename_i t1 st1 h1
      split at h
      · cases h
      · rename_i ts1 st2 h2
        simp only [Option.some.injEq, Prod.mk.injEq] at h
        obtain ⟨rfl, rfl⟩ := h
        simp only [List.map_cons, ih h2]

/-- The names that have a production after normalization. -/
theorem normalize_names {pg : ParsedGrammar} {g} (h : normalizeParsedGrammar pg = some g) (x : Str) :
    (∃ p ∈ g.productions, p.lhs = .nonterminal x) ↔ DeclaredIn x pg ∨
      ∃ k, x = anonName k ∧ ¬ DeclaredIn x pg ∧ freeBelow (pg.map (·.lhs)) k < brackets pg := by
  unfold normalizeParsedGrammar at h
  split at h
  · cases h
  · rename_i out st h0
    injection h with h
    subst h
    have hd : ∀ x, DeclaredIn x pg ↔ x ∈ pg.map (·.lhs) := by simp [DeclaredIn]
    have hi : NamesInv (pg.map (·.lhs)) ⟨pg.map (·.lhs), 0, []⟩ 0 := ⟨by simp, rfl⟩
    have hn := lowerProds_names hi h0
    rw [Nat.zero_add] at hn
    obtain ⟨new, h1, _, _⟩ := lowerProds_spec h0
    have ha := h1.anon
    simp only [List.nil_append] at ha
    have hu := h1.used x
    rw [hn.used] at hu
    simp only at hu
    have hlhs := lowerProds_lhs h0
    have e1 : (∃ p ∈ out ++ st.anon, p.lhs = .nonterminal x) ↔ DeclaredIn x pg ∨ Term.nonterminal x ∈ new.map (·.lhs) := by
      rw [ha]
      have : (∃ p ∈ out, p.lhs = .nonterminal x) ↔ DeclaredIn x pg := by
        have h2 : (∃ p ∈ out, p.lhs = .nonterminal x) ↔ Term.nonterminal x ∈ out.map (·.lhs) := by simp
        rw [h2, hlhs]; simp [DeclaredIn]
      rw [← this]
      simp only [List.mem_append, List.mem_map, or_and_right, exists_or]
    rw [e1]
    have hlt : ∀ k, anonName k ∉ pg.map (·.lhs) → (k < st.counter ↔ freeBelow (pg.map (·.lhs)) k < brackets pg) := by
      intro k hk
      rw [← hn.count]
      constructor
      · intro h
        have := freeBelow_mono (pg.map (·.lhs)) (show k + 1 ≤ st.counter from h)
        rw [freeBelow_succ, if_neg hk] at this
        omega
      · intro h
        by_contra hc
        have := freeBelow_mono (pg.map (·.lhs)) (show st.counter ≤ k by omega)
        omega
    rw [hd]
    constructor
    · rintro (h | h)
      · exact .inl h
      · rcases hu.mpr (.inr h) with h | ⟨k, hk, rfl⟩
        · exact .inl h
        · by_cases hm : anonName k ∈ pg.map (·.lhs)
          · exact .inl hm
          · exact .inr ⟨k, rfl, hm, (hlt k hm).mp hk⟩
    · rintro (h | ⟨k, rfl, hm, hk⟩)
      · exact .inl h
      · rcases hu.mp (.inr ⟨k, (hlt k hm).mpr hk, rfl⟩) with h | h
        · exact .inl h
        · exact .inr h

theorem normalize_count {pg : ParsedGrammar} {g} (h : normalizeParsedGrammar pg = some g) :
    g.productions.length = pg.length + brackets pg := by
  unfold normalizeParsedGrammar at h
  split at h
  · cases h
  · rename_i out st h0
    injection h with h
    subst h
    have hi : NamesInv (pg.map (·.lhs)) ⟨pg.map (·.lhs), 0, []⟩ 0 := ⟨by simp, rfl⟩
    have hn := lowerProds_names hi h0
    rw [Nat.zero_add] at hn
    obtain ⟨new, h1, _, _⟩ := lowerProds_spec h0
    have ha := h1.anon
    simp only [List.nil_append] at ha
    have hlen := congrArg List.length (lowerProds_lhs h0)
    simp only [List.length_map] at hlen
    simp only [List.length_append, hlen, ha]
    congr 1
    rw [← hn.count]
    have hp : (new.map (·.lhs)).Perm
        (((List.range st.counter).filter fun j => anonName j ∉ pg.map (·.lhs)).map fun j => Term.nonterminal (anonName j)) := by
      refine (List.perm_ext_iff_of_nodup h1.nodup ?_).mpr ?_
      · refine List.Nodup.map ?_ (List.nodup_range.filter _)
        intro a b hab
        exact anonName_inj (Term.nonterminal.inj hab)
      · intro t
        constructor
        · intro ht
          obtain ⟨p, hp, rfl⟩ := List.mem_map.mp ht
          obtain ⟨x, k, hx, hu, rfl⟩ := h1.fresh p hp
          rw [hx] at ht ⊢
          have := (h1.used _).mpr (.inr ht)
          rw [hn.used] at this
          rcases this with h | ⟨j, hj, he⟩
          · exact absurd h hu
          · refine List.mem_map.mpr ⟨j, List.mem_filter.mpr ⟨List.mem_range.mpr hj, ?_⟩, by rw [he]⟩
            rw [← he]; exact decide_eq_true hu
        · intro ht
          obtain ⟨j, hj, rfl⟩ := List.mem_map.mp ht
          obtain ⟨hj, hm⟩ := List.mem_filter.mp hj
          rcases (h1.used _).mp ((hn.used _).mpr (.inr ⟨j, List.mem_range.mp hj, rfl⟩)) with h | h
          · exact absurd h (of_decide_eq_true hm)
          · exact h
    have := hp.length_eq
    simpa [freeBelow] using this

theorem numbered_eq (k : Nat) : numbered k = anonName k := by
  have h : (toString k).toList = decimal k := by
    show (Nat.repr k).toList = _
    simp [Nat.repr, decimal]
  unfold numbered anonName
  rw [h]; rfl

theorem taken_iff (pg : ParsedGrammar) (x : Str) : Taken pg x ↔
    ∃ k, x = anonName k ∧ ¬ DeclaredIn x pg ∧ freeBelow (pg.map (·.lhs)) k < brackets pg := by
  have key : ∀ k j, j ∈ ((List.range k).filter fun j => anonName j ∉ pg.map (·.lhs)) ↔ j < k ∧ ¬ DeclaredIn (numbered j) pg := by
    intro k j
    rw [List.mem_filter, List.mem_range, numbered_eq]
    simp [DeclaredIn]
  constructor
  · rintro ⟨k, rfl, hd, b, h1, h2, h3⟩
    refine ⟨k, numbered_eq k, hd, ?_⟩
    have : b.Perm ((List.range k).filter fun j => anonName j ∉ pg.map (·.lhs)) :=
      (List.perm_ext_iff_of_nodup h1 (List.nodup_range.filter _)).mpr fun j => by rw [h2, key]
    unfold freeBelow
    rw [← this.length_eq]; exact h3
  · rintro ⟨k, rfl, hd, h⟩
    exact ⟨k, (numbered_eq k).symm, hd, _, List.nodup_range.filter _, key k, h⟩

end Bnf
