import Verif.Model.Debug
import Verif.Proofs.Generate

/-! # Debug builds -/

set_option autoImplicit false

namespace Bnf
open Spec
variable {σ : Type} {g : Grammar} {S : RefStrategy σ} {f : Callback σ}

/-- The debug result is the release result, or a panic. -/
def AgreeOrPanic (x y : GenRes σ) : Prop := x = y ∨ x = .panic

theorem evalTerms_agree {t u : Str → σ → GenRes σ} (h : ∀ n st, AgreeOrPanic (t n st) (u n st)) : ∀ (ts : List Term) (r : Str) (st : σ),
    AgreeOrPanic (evalTerms t ts r st) (evalTerms u ts r st)
  | [], _, _ => .inl rfl
  | .terminal _ :: ts, r, st => by
    simp only [evalTerms]
    exact evalTerms_agree h ts _ _
  | .nonterminal n :: ts, r, st => by
    simp only [evalTerms]
    rcases h n st with e | e
    · rw [e]
      split
      · exact evalTerms_agree h ts _ _
      · exact .inl rfl
      · exact .inl rfl
      · exact .inl rfl
    · rw [e]; exact .inr rfl

theorem traverseDebug_agree : ∀ (N : Nat) (n : Str) (d : Nat) (st : σ),
    AgreeOrPanic (traverseDebug g S f N n d st) (traverse g S.values f N n d st)
  | 0, _, _, _ => .inl rfl
  | N + 1, n, d, st => by
    rw [traverseDebug, traverse]
    cases hf : findProduction n g.productions 0 with
    | none => exact .inl rfl
    | some x =>
      obtain ⟨addr, production⟩ := x
      simp only
      by_cases hn : productionHasNoChoice production = true
      · rw [if_pos hn, if_pos hn]; exact .inl rfl
      · rw [if_neg hn, if_neg hn, show S.values.choose st addr production d =
          ((S.choose st addr production d).1.value, (S.choose st addr production d).2) from rfl]
        cases hc : S.choose st addr production d with
        | mk c st' =>
          cases c with
          | panic => exact .inl rfl
          | none => exact .inl rfl
          | foreign e => exact .inr rfl
          | own i =>
            simp only [Pick.value]
            rcases evalTerms_agree (fun n st => traverseDebug_agree N n (d + 1) st) production.rhs[i].terms [] st' with e | e
            · rw [e]
              cases evalTerms (fun nt st => traverse g S.values f N nt (d + 1) st) production.rhs[i].terms [] st' with
              | fuel => exact .inl rfl
              | panic => exact .inl rfl
              | done r st'' =>
                cases r with
                | error _ => exact .inl rfl
                | ok result =>
                  simp only
                  by_cases ha : (f st'' n result).1 = true
                  · rw [if_pos ha, if_pos ha]; exact .inl rfl
                  · rw [if_neg ha, if_neg ha]; exact traverseDebug_agree N n d _
            · rw [e]; exact .inr rfl

theorem evalTerms_congr {t u : Str → σ → GenRes σ} (h : ∀ n st, t n st = u n st) (ts : List Term) (r : Str) (st : σ) :
    evalTerms t ts r st = evalTerms u ts r st := by
  have : t = u := by funext n st; exact h n st
  rw [this]

/-- Without foreign references there is no difference. -/
theorem traverseDebug_eq (hS : ∀ st a p d e, p ∈ g.productions → (S.choose st a p d).1 ≠ .foreign e) : ∀ (N : Nat) (n : Str) (d : Nat) (st : σ),
    traverseDebug g S f N n d st = traverse g S.values f N n d st
  | 0, _, _, _ => rfl
  | N + 1, n, d, st => by
    rw [traverseDebug, traverse]
    cases hf : findProduction n g.productions 0 with
    | none => rfl
    | some x =>
      obtain ⟨addr, production⟩ := x
      have hm := isFirst_mem (isFirst_of_find hf)
      simp only
      by_cases hn : productionHasNoChoice production = true
      · rw [if_pos hn, if_pos hn]
      · rw [if_neg hn, if_neg hn, show S.values.choose st addr production d =
          ((S.choose st addr production d).1.value, (S.choose st addr production d).2) from rfl]
        have := hS st addr production d
        cases hc : S.choose st addr production d with
        | mk c st' =>
          rw [hc] at this
          cases c with
          | panic => rfl
          | none => rfl
          | foreign e => exact absurd rfl (this e hm)
          | own i =>
            simp only [Pick.value]
            rw [evalTerms_congr (fun n st => traverseDebug_eq hS N n (d + 1) st)]
            cases evalTerms (fun nt st => traverse g S.values f N nt (d + 1) st) production.rhs[i].terms [] st' with
            | fuel => rfl
            | panic => rfl
            | done r st'' =>
              cases r with
              | error _ => rfl
              | ok result =>
                simp only
                rw [traverseDebug_eq hS N n d _]

theorem generateWithDebug_cases (fuel : Nat) (st : σ) :
    g.generateWithDebug S f fuel st = g.generateWith S.values f fuel st ∨
    ∃ nt, g.generateWithDebug S f fuel st = traverseDebug g S f fuel nt 0 st ∧
      g.generateWith S.values f fuel st = traverse g S.values f fuel nt 0 st := by
  unfold Grammar.generateWithDebug Grammar.generateWith
  cases g.terminates with
  | none => exact .inl rfl
  | some b =>
    cases b with
    | false => exact .inl rfl
    | true =>
      cases g.productions with
      | nil => exact .inl rfl
      | cons p ps =>
        simp only
        cases p.lhs with
        | terminal _ => exact .inl rfl
        | nonterminal nt => exact .inr ⟨nt, rfl, rfl⟩

theorem getExpressionRef_value (p : Production) (i : Nat) : (getExpressionRef p i).value = getExpression p i := by
  unfold getExpressionRef getExpression
  by_cases h : i < p.rhs.length
  · simp [h, Pick.value]
  · simp [h, Pick.value]

theorem getExpressionRef_ne (p : Production) (i : Nat) (e : Expression) : getExpressionRef p i ≠ .foreign e := by
  unfold getExpressionRef
  split <;> simp

end Bnf
