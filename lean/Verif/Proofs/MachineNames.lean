import Verif.Proofs.MachineText
import Verif.Proofs.Names
import Verif.Proofs.TextMain

/-! When the counter of generated names overflows. -/

set_option autoImplicit false

namespace Bnf
open Spec Nom

theorem freshLoopW_fits {max : Nat} {used : List Str} : ∀ {n c nm c'}, freshLoopW max used n c = some (nm, c') →
    freshLoop used n c = some (nm, c') ∧ c' ≤ max := by
  intro n
  induction n with
  | zero => intro c nm c' h; cases h
  | succ n ih =>
    intro c nm c' h
    simp only [freshLoopW] at h
    by_cases hm : c + 1 ≤ max
    · simp only [addW, if_pos hm] at h
      split at h
      · rename_i hu
        obtain ⟨h1, h2⟩ := ih h
        exact ⟨by simp only [freshLoop, if_pos hu, h1], h2⟩
      · rename_i hu
        injection h with h
        injection h with e1 e2
        subst e1 e2
        exact ⟨by simp only [freshLoop, if_neg hu], hm⟩
    · simp only [addW, if_neg hm] at h
      cases h

/-- Every name in `D` is used, and the last number handed out is not one of `D`. -/
structure LastInv (D : List Str) (st : NormState) : Prop where
  used : ∀ x ∈ D, x ∈ st.used
  last : st.counter = 0 ∨ anonName (st.counter - 1) ∉ D

theorem LastInv.anon {D : List Str} {st : NormState} (h : LastInv D st) (l) : LastInv D { st with anon := l } := ⟨h.used, h.last⟩

theorem freshAnonName_last {D : List Str} {st st' : NormState} {x} (hi : LastInv D st) (h : freshAnonName st = some (x, st')) : LastInv D st' := by
  unfold freshAnonName at h
  split at h
  · cases h
  · rename_i nm c h0
    simp only [Option.some.injEq, Prod.mk.injEq] at h
    obtain ⟨rfl, rfl⟩ := h
    obtain ⟨k, h1, rfl, rfl, h4, h5⟩ := freshLoop_skips h0
    exact ⟨fun x hx => List.mem_cons_of_mem _ (hi.used x hx), .inr fun h => h4 (hi.used _ h)⟩

theorem freshAnonNameW_fits {max : Nat} {st st' : NormState} {nm} (h : freshAnonNameW max st = some (nm, st')) :
    freshAnonName st = some (nm, st') ∧ st'.counter ≤ max := by
  unfold freshAnonNameW at h
  unfold freshAnonName
  cases hl : freshLoopW max st.used (st.used.length + 1) st.counter with
  | none => rw [hl] at h; cases h
  | some r =>
    rw [hl] at h
    injection h with h
    injection h with e1 e2
    subst e1 e2
    obtain ⟨h1, h2⟩ := freshLoopW_fits (nm := r.1) (c' := r.2) hl
    rw [h1]
    exact ⟨rfl, h2⟩

mutual

theorem lowerTermW_fits {max : Nat} : ∀ {t st t' st'}, lowerTermW max t st = some (t', st') →
    lowerTerm t st = some (t', st') ∧ (st.counter ≤ max → st'.counter ≤ max)
  | .simple t, st, t', st', h => by
    simp only [lowerTermW, Option.some.injEq, Prod.mk.injEq] at h
    obtain ⟨rfl, rfl⟩ := h
    exact ⟨by simp [lowerTerm], id⟩
  | .group as, st, t', st', h => by
    simp only [lowerTermW] at h
    cases hf : freshAnonNameW max st with
    | none => simp [hf] at h
    | some r =>
      simp only [hf] at h
      cases ha : lowerAltsW max as r.2 with
      | none => simp [ha] at h
      | some r' =>
        simp only [ha, Option.some.injEq, Prod.mk.injEq] at h
        obtain ⟨rfl, rfl⟩ := h
        obtain ⟨h3, h4⟩ := freshAnonNameW_fits hf
        obtain ⟨h1, h2⟩ := lowerAltsW_fits ha
        exact ⟨by simp only [lowerTerm, h3, h1], fun _ => h2 h4⟩
  | .optional as, st, t', st', h => by
    simp only [lowerTermW] at h
    cases hf : freshAnonNameW max st with
    | none => simp [hf] at h
    | some r =>
      simp only [hf] at h
      cases ha : lowerAltsW max as r.2 with
      | none => simp [ha] at h
      | some r' =>
        simp only [ha, Option.some.injEq, Prod.mk.injEq] at h
        obtain ⟨rfl, rfl⟩ := h
        obtain ⟨h3, h4⟩ := freshAnonNameW_fits hf
        obtain ⟨h1, h2⟩ := lowerAltsW_fits ha
        exact ⟨by simp only [lowerTerm, h3, h1], fun _ => h2 h4⟩

theorem lowerTermsW_fits {max : Nat} : ∀ {ts st ts' st'}, lowerTermsW max ts st = some (ts', st') →
    lowerTerms ts st = some (ts', st') ∧ (st.counter ≤ max → st'.counter ≤ max)
  | [], st, ts', st', h => by
    simp only [lowerTermsW, Option.some.injEq, Prod.mk.injEq] at h
    obtain ⟨rfl, rfl⟩ := h
    exact ⟨by simp [lowerTerms], id⟩
  | t :: ts, st, ts', st', h => by
    simp only [lowerTermsW] at h
    cases ht : lowerTermW max t st with
    | none => simp [ht] at h
    | some r =>
      simp only [ht] at h
      cases hts : lowerTermsW max ts r.2 with
      | none => simp [hts] at h
      | some r' =>
        simp only [hts, Option.some.injEq, Prod.mk.injEq] at h
        obtain ⟨rfl, rfl⟩ := h
        obtain ⟨h1, h2⟩ := lowerTermW_fits ht
        obtain ⟨h3, h4⟩ := lowerTermsW_fits hts
        exact ⟨by simp only [lowerTerms, h1, h3], fun h => h4 (h2 h)⟩

theorem lowerAltsW_fits {max : Nat} : ∀ {ts st ts' st'}, lowerAltsW max ts st = some (ts', st') →
    lowerAlts ts st = some (ts', st') ∧ (st.counter ≤ max → st'.counter ≤ max)
  | [], st, ts', st', h => by
    simp only [lowerAltsW, Option.some.injEq, Prod.mk.injEq] at h
    obtain ⟨rfl, rfl⟩ := h
    exact ⟨by simp [lowerAlts], id⟩
  | t :: ts, st, ts', st', h => by
    simp only [lowerAltsW] at h
    cases ht : lowerTermsW max t st with
    | none => simp [ht] at h
    | some r =>
      simp only [ht] at h
      cases hts : lowerAltsW max ts r.2 with
      | none => simp [hts] at h
      | some r' =>
        simp only [hts, Option.some.injEq, Prod.mk.injEq] at h
        obtain ⟨rfl, rfl⟩ := h
        obtain ⟨h1, h2⟩ := lowerTermsW_fits ht
        obtain ⟨h3, h4⟩ := lowerAltsW_fits hts
        exact ⟨by simp only [lowerAlts, h1, h3], fun h => h4 (h2 h)⟩

end

theorem lowerProdsW_fits {max : Nat} : ∀ {ts st ts' st'}, lowerProdsW max ts st = some (ts', st') →
    lowerProds ts st = some (ts', st') ∧ (st.counter ≤ max → st'.counter ≤ max)
  | [], st, ts', st', h => by
    simp only [lowerProdsW, Option.some.injEq, Prod.mk.injEq] at h
    obtain ⟨rfl, rfl⟩ := h
    exact ⟨by simp [lowerProds], id⟩
  | t :: ts, st, ts', st', h => by
    simp only [lowerProdsW] at h
    cases ht : lowerAltsW max t.rhs st with
    | none => simp [ht] at h
    | some r =>
      simp only [ht] at h
      cases hts : lowerProdsW max ts r.2 with
      | none => simp [hts] at h
      | some r' =>
        simp only [hts, Option.some.injEq, Prod.mk.injEq] at h
        obtain ⟨rfl, rfl⟩ := h
        obtain ⟨h1, h2⟩ := lowerAltsW_fits ht
        obtain ⟨h3, h4⟩ := lowerProdsW_fits hts
        exact ⟨by simp only [lowerProds, h1, h3], fun h => h4 (h2 h)⟩

mutual

theorem lowerTerm_last {D : List Str} : ∀ {t st t' st'}, LastInv D st → lowerTerm t st = some (t', st') → LastInv D st'
  | .simple t, st, t', st', hi, h => by
    simp only [lowerTerm, Option.some.injEq, Prod.mk.injEq] at h
    obtain ⟨rfl, rfl⟩ := h
    exact hi
  | .group as, st, t', st', hi, h => by
    simp only [lowerTerm] at h
    cases hf : freshAnonName st with
    | none => simp [hf] at h
    | some r =>
      simp only [hf] at h
      cases ha : lowerAlts as r.2 with
      | none => simp [ha] at h
      | some r' =>
        simp only [ha, Option.some.injEq, Prod.mk.injEq] at h
        obtain ⟨rfl, rfl⟩ := h
        exact (lowerAlts_last (freshAnonName_last hi hf) ha).anon _
  | .optional as, st, t', st', hi, h => by
    simp only [lowerTerm] at h
    cases hf : freshAnonName st with
    | none => simp [hf] at h
    | some r =>
      simp only [hf] at h
      cases ha : lowerAlts as r.2 with
      | none => simp [ha] at h
      | some r' =>
        simp only [ha, Option.some.injEq, Prod.mk.injEq] at h
        obtain ⟨rfl, rfl⟩ := h
        exact (lowerAlts_last (freshAnonName_last hi hf) ha).anon _

theorem lowerTerms_last {D : List Str} : ∀ {ts st ts' st'}, LastInv D st → lowerTerms ts st = some (ts', st') → LastInv D st'
  | [], st, ts', st', hi, h => by
    simp only [lowerTerms, Option.some.injEq, Prod.mk.injEq] at h
    obtain ⟨rfl, rfl⟩ := h
    exact hi
  | t :: ts, st, ts', st', hi, h => by
    simp only [lowerTerms] at h
    cases ht : lowerTerm t st with
    | none => simp [ht] at h
    | some r =>
      simp only [ht] at h
      cases hts : lowerTerms ts r.2 with
      | none => simp [hts] at h
      | some r' =>
        simp only [hts, Option.some.injEq, Prod.mk.injEq] at h
        obtain ⟨rfl, rfl⟩ := h
        exact lowerTerms_last (lowerTerm_last hi ht) hts

theorem lowerAlts_last {D : List Str} : ∀ {ts st ts' st'}, LastInv D st → lowerAlts ts st = some (ts', st') → LastInv D st'
  | [], st, ts', st', hi, h => by
    simp only [lowerAlts, Option.some.injEq, Prod.mk.injEq] at h
    obtain ⟨rfl, rfl⟩ := h
    exact hi
  | t :: ts, st, ts', st', hi, h => by
    simp only [lowerAlts] at h
    cases ht : lowerTerms t st with
    | none => simp [ht] at h
    | some r =>
      simp only [ht] at h
      cases hts : lowerAlts ts r.2 with
      | none => simp [hts] at h
      | some r' =>
        simp only [hts, Option.some.injEq, Prod.mk.injEq] at h
        obtain ⟨rfl, rfl⟩ := h
        exact lowerAlts_last (lowerTerms_last hi ht) hts

end

theorem lowerProds_last {D : List Str} : ∀ {ts st ts' st'}, LastInv D st → lowerProds ts st = some (ts', st') → LastInv D st'
  | [], st, ts', st', hi, h => by
    simp only [lowerProds, Option.some.injEq, Prod.mk.injEq] at h
    obtain ⟨rfl, rfl⟩ := h
    exact hi
  | t :: ts, st, ts', st', hi, h => by
    simp only [lowerProds] at h
    cases ht : lowerAlts t.rhs st with
    | none => simp [ht] at h
    | some r =>
      simp only [ht] at h
      cases hts : lowerProds ts r.2 with
      | none => simp [hts] at h
      | some r' =>
        simp only [hts, Option.some.injEq, Prod.mk.injEq] at h
        obtain ⟨rfl, rfl⟩ := h
        exact lowerProds_last (lowerAlts_last hi ht) hts

/-- The normalization fails exactly if a name with too large a number is needed. -/
theorem normalizeW_none {max : Nat} {pg : ParsedGrammar} :
    normalizeParsedGrammarW max pg = none ↔ ∃ k, Taken pg (numbered k) ∧ max ≤ k := by
  obtain ⟨out, st, hl⟩ := lowerProds_total pg ⟨pg.map (·.lhs), 0, []⟩
  have hn := lowerProds_names (D := pg.map (·.lhs)) (n := 0) ⟨by simp, rfl⟩ hl
  rw [Nat.zero_add] at hn
  have hlast := lowerProds_last (D := pg.map (·.lhs)) ⟨fun x h => h, .inl rfl⟩ hl
  have h1 : normalizeParsedGrammarW max pg = none ↔ max < st.counter := by
    unfold normalizeParsedGrammarW
    cases hw : lowerProdsW max pg ⟨pg.map (·.lhs), 0, []⟩ with
    | none =>
      simp only [true_iff]
      by_contra hc
      rw [(lowerProdsW_eq hl (by omega)).1] at hw
      cases hw
    | some r =>
      obtain ⟨h1, h2⟩ := lowerProdsW_fits (ts' := r.1) (st' := r.2) hw
      rw [hl] at h1
      injection h1 with h1
      injection h1 with e1 e2
      have := h2 (Nat.zero_le _)
      rw [← e2] at this
      simp only [reduceCtorEq, false_iff]
      omega
  have hlt : ∀ k, anonName k ∉ pg.map (·.lhs) → (k < st.counter ↔ freeBelow (pg.map (·.lhs)) k < brackets pg) := by
    intro k hk
    rw [← hn.count]
    constructor
    · intro h
      have := freeBelow_mono (pg.map (·.lhs)) (show k + 1 ≤ st.counter from h)
      rw [freeBelow_succ, if_neg hk] at this
      omega
    · intro h
      by_contra hc
      have := freeBelow_mono (pg.map (·.lhs)) (show st.counter ≤ k by omega)
      omega
  have hd : ∀ x, DeclaredIn x pg ↔ x ∈ pg.map (·.lhs) := by simp [DeclaredIn]
  rw [h1]
  constructor
  · intro h
    rcases hlast.last with h0 | h0
    · omega
    · refine ⟨st.counter - 1, (taken_iff _ _).mpr ⟨st.counter - 1, numbered_eq _, ?_, ?_⟩, by omega⟩
      · rw [hd, numbered_eq]; exact h0
      · exact (hlt _ h0).mp (by omega)
  · rintro ⟨k, ht, hk⟩
    obtain ⟨k', e, h2, h3⟩ := (taken_iff _ _).mp ht
    rw [numbered_eq] at e h2
    have := anonName_inj e
    subst this
    have := (hlt k (by rwa [hd] at h2)).mpr h3
    omega

theorem normalizeW_some {max : Nat} {pg : ParsedGrammar} {g} (h : normalizeParsedGrammarW max pg = some g) : normalizeParsedGrammar pg = some g := by
  unfold normalizeParsedGrammarW at h
  unfold normalizeParsedGrammar
  cases hw : lowerProdsW max pg ⟨pg.map (·.lhs), 0, []⟩ with
  | none => rw [hw] at h; cases h
  | some r => rw [hw] at h; rw [(lowerProdsW_fits (ts' := r.1) (st' := r.2) hw).1]; exact h

theorem not_taken_of_plain {pg : ParsedGrammar} (h : brackets pg = 0) (x : Str) : ¬ Taken pg x := by
  rintro ⟨k, _, _, b, _, _, hb⟩
  omega

/-- Reading fails exactly if a name with too large a number is needed. -/
theorem parseFromW_exact {max : Nat} {F : Format} (hF : F.Regular) {s : Str} {pg} (ht : GrammarText F pg s) :
    (Grammar.parseFromW max F s = none ↔ ∃ k, Taken pg (numbered k) ∧ max ≤ k) ∧
    ((¬ ∃ k, Taken pg (numbered k) ∧ max ≤ k) → Grammar.parseFromW max F s = Grammar.parseFrom F s) := by
  have hp := parsedGrammarComplete_complete hF ht (Nat.lt_succ_self _)
  have hplain : ∀ {r g}, allConsuming (plainGrammar F (s.length + 1)) s = .ok r g → ¬ ∃ k, Taken pg (numbered k) ∧ max ≤ k := by
    rintro r g h ⟨k, hk, _⟩
    obtain ⟨rfl, _⟩ := allConsuming_ok.mp h
    obtain ⟨h1, h2⟩ := plainGrammar_sound hF h
    have := normalize_count (normalize_plain h2)
    rw [grammarText_unique hF ht h1] at hk
    refine not_taken_of_plain ?_ _ hk
    have hl : ∀ ps : List Production, (toParsed ps).length = ps.length := fun ps => by induction ps <;> simp_all [toParsed]
    rw [hl] at this
    exact Nat.add_left_cancel (this.symm.trans (Nat.add_zero _).symm)
  by_cases hk : ∃ k, Taken pg (numbered k) ∧ max ≤ k
  · refine ⟨iff_of_true ?_ hk, fun h => absurd hk h⟩
    have hw := normalizeW_none.mpr hk
    unfold Grammar.parseFromW
    simp only [hp, Res.andThen, hw]
    cases grammarHasExtendedSyntax s with
    | true => rfl
    | false =>
      cases hq : allConsuming (plainGrammar F (s.length + 1)) s with
      | ok r g => exact absurd hk (hplain hq)
      | err => rfl
      | fuel => rfl
  · have hw : Grammar.parseFromW max F s = Grammar.parseFrom F s := by
      cases hn : normalizeParsedGrammarW max pg with
      | none => exact absurd (normalizeW_none.mp hn) hk
      | some g =>
        unfold Grammar.parseFromW Grammar.parseFrom grammarComplete grammarCompleteFuel
        simp only [hp, Res.andThen, hn, normalizeW_some hn]
        cases grammarHasExtendedSyntax s with
        | true => rfl
        | false => cases allConsuming (plainGrammar F (s.length + 1)) s <;> rfl
    refine ⟨iff_of_false ?_ hk, fun _ => hw⟩
    rw [hw]
    obtain ⟨g, hg⟩ := normalize_total pg
    rw [(parseFrom_ok hF).mpr ⟨pg, ht, hg⟩]
    simp

end Bnf
