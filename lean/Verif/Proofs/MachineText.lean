import Verif.Model.Machine
import Verif.Proofs.CostDepth

/-! Bounded integers never overflow: reading a grammar text. -/

set_option autoImplicit false

namespace Bnf
open Spec Nom

theorem freshLoopW_eq {max : Nat} {used : List Str} : ∀ {n c nm c'}, freshLoop used n c = some (nm, c') → c' ≤ max →
    freshLoopW max used n c = some (nm, c') ∧ c < c' := by
  intro n
  induction n with
  | zero => intro c nm c' h; cases h
  | succ n ih =>
    intro c nm c' h hm
    simp only [freshLoop] at h
    split at h
    · rename_i hu
      obtain ⟨h1, h2⟩ := ih h hm
      refine ⟨?_, by omega⟩
      have : addW max c 1 = some (c + 1) := by simp [addW]; omega
      simp only [freshLoopW, this, if_pos hu, h1]
    · rename_i hu
      injection h with h
      injection h with e1 e2
      subst e1 e2
      refine ⟨?_, by omega⟩
      have : addW max c 1 = some (c + 1) := by simp [addW]; omega
      simp only [freshLoopW, this, if_neg hu]

theorem freshAnonNameW_eq {max : Nat} {st st' : NormState} {nm} (h : freshAnonName st = some (nm, st')) (hm : st'.counter ≤ max) :
    freshAnonNameW max st = some (nm, st') ∧ st.counter ≤ st'.counter := by
  unfold freshAnonName at h
  unfold freshAnonNameW
  cases hl : freshLoop st.used (st.used.length + 1) st.counter with
  | none => rw [hl] at h; cases h
  | some r =>
    rw [hl] at h
    injection h with h
    injection h with e1 e2
    subst e1 e2
    obtain ⟨h1, h2⟩ := freshLoopW_eq (nm := r.1) (c' := r.2) hl hm
    rw [h1]
    exact ⟨rfl, Nat.le_of_lt h2⟩

mutual

theorem lowerTermW_eq {max : Nat} : ∀ {t st t' st'}, lowerTerm t st = some (t', st') → st'.counter ≤ max →
    lowerTermW max t st = some (t', st') ∧ st.counter ≤ st'.counter
  | .simple t, st, t', st', h, hm => by
    simp only [lowerTerm, Option.some.injEq, Prod.mk.injEq] at h
    obtain ⟨rfl, rfl⟩ := h
    exact ⟨by simp [lowerTermW], Nat.le_refl _⟩
  | .group as, st, t', st', h, hm => by
    simp only [lowerTerm] at h
    cases hf : freshAnonName st with
    | none => simp [hf] at h
    | some r =>
      simp only [hf] at h
      cases ha : lowerAlts as r.2 with
      | none => simp [ha] at h
      | some r' =>
        simp only [ha, Option.some.injEq, Prod.mk.injEq] at h
        obtain ⟨rfl, rfl⟩ := h
        obtain ⟨h1, h2⟩ := lowerAltsW_eq ha hm
        obtain ⟨h3, h4⟩ := freshAnonNameW_eq hf (Nat.le_trans h2 hm)
        refine ⟨?_, Nat.le_trans h4 h2⟩
        simp only [lowerTermW, h3, h1]
  | .optional as, st, t', st', h, hm => by
    simp only [lowerTerm] at h
    cases hf : freshAnonName st with
    | none => simp [hf] at h
    | some r =>
      simp only [hf] at h
      cases ha : lowerAlts as r.2 with
      | none => simp [ha] at h
      | some r' =>
        simp only [ha, Option.some.injEq, Prod.mk.injEq] at h
        obtain ⟨rfl, rfl⟩ := h
        obtain ⟨h1, h2⟩ := lowerAltsW_eq ha hm
        obtain ⟨h3, h4⟩ := freshAnonNameW_eq hf (Nat.le_trans h2 hm)
        refine ⟨?_, Nat.le_trans h4 h2⟩
        simp only [lowerTermW, h3, h1]

theorem lowerTermsW_eq {max : Nat} : ∀ {ts st ts' st'}, lowerTerms ts st = some (ts', st') → st'.counter ≤ max →
    lowerTermsW max ts st = some (ts', st') ∧ st.counter ≤ st'.counter
  | [], st, ts', st', h, hm => by
    simp only [lowerTerms, Option.some.injEq, Prod.mk.injEq] at h
    obtain ⟨rfl, rfl⟩ := h
    exact ⟨by simp [lowerTermsW], Nat.le_refl _⟩
  | t :: ts, st, ts', st', h, hm => by
    simp only [lowerTerms] at h
    cases ht : lowerTerm t st with
    | none => simp [ht] at h
    | some r =>
      simp only [ht] at h
      cases hts : lowerTerms ts r.2 with
      | none => simp [hts] at h
      | some r' =>
        simp only [hts, Option.some.injEq, Prod.mk.injEq] at h
        obtain ⟨rfl, rfl⟩ := h
        obtain ⟨h1, h2⟩ := lowerTermsW_eq hts hm
        obtain ⟨h3, h4⟩ := lowerTermW_eq ht (Nat.le_trans h2 hm)
        refine ⟨?_, Nat.le_trans h4 h2⟩
        simp only [lowerTermsW, h3, h1]

theorem lowerAltsW_eq {max : Nat} : ∀ {as st as' st'}, lowerAlts as st = some (as', st') → st'.counter ≤ max →
    lowerAltsW max as st = some (as', st') ∧ st.counter ≤ st'.counter
  | [], st, as', st', h, hm => by
    simp only [lowerAlts, Option.some.injEq, Prod.mk.injEq] at h
    obtain ⟨rfl, rfl⟩ := h
    exact ⟨by simp [lowerAltsW], Nat.le_refl _⟩
  | e :: es, st, as', st', h, hm => by
    simp only [lowerAlts] at h
    cases ht : lowerTerms e st with
    | none => simp [ht] at h
    | some r =>
      simp only [ht] at h
      cases hts : lowerAlts es r.2 with
      | none => simp [hts] at h
      | some r' =>
        simp only [hts, Option.some.injEq, Prod.mk.injEq] at h
        obtain ⟨rfl, rfl⟩ := h
        obtain ⟨h1, h2⟩ := lowerAltsW_eq hts hm
        obtain ⟨h3, h4⟩ := lowerTermsW_eq ht (Nat.le_trans h2 hm)
        refine ⟨?_, Nat.le_trans h4 h2⟩
        simp only [lowerAltsW, h3, h1]

end

theorem lowerProdsW_eq {max : Nat} : ∀ {ps st ps' st'}, lowerProds ps st = some (ps', st') → st'.counter ≤ max →
    lowerProdsW max ps st = some (ps', st') ∧ st.counter ≤ st'.counter
  | [], st, as', st', h, hm => by
    simp only [lowerProds, Option.some.injEq, Prod.mk.injEq] at h
    obtain ⟨rfl, rfl⟩ := h
    exact ⟨by simp [lowerProdsW], Nat.le_refl _⟩
  | p :: ps, st, as', st', h, hm => by
    simp only [lowerProds] at h
    cases ht : lowerAlts p.rhs st with
    | none => simp [ht] at h
    | some r =>
      simp only [ht] at h
      cases hts : lowerProds ps r.2 with
      | none => simp [hts] at h
      | some r' =>
        simp only [hts, Option.some.injEq, Prod.mk.injEq] at h
        obtain ⟨rfl, rfl⟩ := h
        obtain ⟨h1, h2⟩ := lowerProdsW_eq hts hm
        obtain ⟨h3, h4⟩ := lowerAltsW_eq ht (Nat.le_trans h2 hm)
        refine ⟨?_, Nat.le_trans h4 h2⟩
        simp only [lowerProdsW, h3, h1]

theorem normalizeW_eq {max : Nat} {pg : ParsedGrammar} (h : pg.length + brackets pg ≤ max) :
    normalizeParsedGrammarW max pg = normalizeParsedGrammar pg := by
  unfold normalizeParsedGrammarW normalizeParsedGrammar
  cases hl : lowerProds pg ⟨pg.map (·.lhs), 0, []⟩ with
  | none =>
    obtain ⟨x, st, hx⟩ := lowerProds_total pg ⟨pg.map (·.lhs), 0, []⟩
    rw [hx] at hl; cases hl
  | some r =>
    rw [(lowerProdsW_eq (ps' := r.1) (st' := r.2) hl (Nat.le_trans (normalize_tries hl) h)).1]

theorem parseFromW_eq {max : Nat} {F : Format} (hF : F.Regular) {s : Str} (h : s.length ≤ max) : Grammar.parseFromW max F s = Grammar.parseFrom F s := by
  unfold Grammar.parseFromW Grammar.parseFrom grammarComplete grammarCompleteFuel
  dsimp only
  cases hp : parsedGrammarComplete F (s.length + 1) s with
  | err => cases grammarHasExtendedSyntax s <;> cases allConsuming (plainGrammar F (s.length + 1)) s <;> rfl
  | fuel => cases grammarHasExtendedSyntax s <;> cases allConsuming (plainGrammar F (s.length + 1)) s <;> rfl
  | ok r pg =>
    have ht := text_brackets (parsedGrammarComplete_sound hF hp)
    simp only [Res.andThen]
    rw [normalizeW_eq (by omega)]
    cases normalizeParsedGrammar pg <;> cases grammarHasExtendedSyntax s <;> cases allConsuming (plainGrammar F (s.length + 1)) s <;> rfl

end Bnf
