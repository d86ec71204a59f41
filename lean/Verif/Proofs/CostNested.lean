import Verif.Proofs.CostDepth
import Verif.Proofs.TextMain

/-! # Nested brackets that are read nest the calls -/

set_option autoImplicit false

namespace Bnf
namespace Timed
open Spec
variable {α β : Type} {F : Format}

/-- Whatever is read with the property `w` has cost a depth of `k`. -/
def Reach (p : Timed α) (k : Nat) (w : α → Prop) : Prop := ∀ s r v, p.run s = .ok r v → w v → k ≤ p.depth s

theorem reach_many {p : Timed α} {k : Nat} {w : α → Prop} (hp : Reach p k w) : ∀ n s r acc vs, Nom.manyLoop p.run n s acc = .ok r vs →
    ∀ v ∈ vs, w v → v ∈ acc ∨ k ≤ manyDepth p n s
  | 0, s, r, acc, vs, h, v, hv, hw => by cases h
  | n + 1, s, r, acc, vs, h, v, hv, hw => by
    simp only [Nom.manyLoop] at h
    cases hr : p.run s with
    | fuel => rw [hr] at h; cases h
    | err =>
      rw [hr] at h
      injection h with _ h
      subst h
      exact .inl hv
    | ok r1 v1 =>
      rw [hr] at h
      simp only at h
      split at h
      · cases h
      · rename_i hne
        simp only [manyDepth, hr, if_neg hne]
        rcases reach_many hp n r1 r _ vs h v hv hw with hm | hm
        · rcases List.mem_append.mp hm with hm | hm
          · exact .inl hm
          · rcases List.mem_singleton.mp hm with rfl
            have := hp _ _ _ hr hw
            exact .inr (by omega)
        · exact .inr (by omega)

theorem reach_many1 {p : Timed α} {k : Nat} {w : α → Prop} (hp : Reach p k w) (n : Nat) : Reach (many1 n p) k fun vs => ∃ v ∈ vs, w v := by
  rintro s r vs h ⟨v, hv, hw⟩
  obtain ⟨r1, v1, h1, h2⟩ := Res.andThen_ok.mp h
  simp only [many1, h1]
  rcases reach_many hp n r1 r _ vs h2 v hv hw with hm | hm
  · rcases List.mem_singleton.mp hm with rfl
    have := hp _ _ _ h1 hw
    omega
  · omega

theorem reach_xt {p : Timed α} {d : Timed β} {k : Nat} {w : α → Prop} (hp : Reach p k w) : ∀ n s r acc vs, Nom.xtLoop p.run d.run n s acc = .ok r vs →
    ∀ v ∈ vs, w v → v ∈ acc ∨ k ≤ xtDepth p d n s
  | 0, s, r, acc, vs, h, v, hv, hw => by cases h
  | n + 1, s, r, acc, vs, h, v, hv, hw => by
    simp only [Nom.xtLoop] at h
    cases hr : p.run s with
    | fuel => rw [hr] at h; cases h
    | err => rw [hr] at h; cases h
    | ok r1 v1 =>
      rw [hr] at h
      simp only at h
      simp only [xtDepth, hr]
      have last : v ∈ acc ++ [v1] → v ∈ acc ∨ k ≤ p.depth s := by
        intro hm
        rcases List.mem_append.mp hm with hm | hm
        · exact .inl hm
        · rcases List.mem_singleton.mp hm with rfl
          exact .inr (hp _ _ _ hr hw)
      cases hd : d.run r1 with
      | fuel => rw [hd] at h; cases h
      | err =>
        rw [hd] at h
        injection h with _ h
        subst h
        exact (last hv).imp_right fun h => by omega
      | ok r2 v2 =>
        rw [hd] at h
        simp only at h ⊢
        rcases reach_xt hp n r2 r _ vs h v hv hw with hm | hm
        · exact (last hm).imp_right fun h => by omega
        · exact .inr (by omega)

theorem reach_xtList {p : Timed α} {d : Timed β} {k : Nat} {w : α → Prop} (hp : Reach p k w) (n : Nat) :
    Reach (xtList n p d) k fun vs => ∃ v ∈ vs, w v := by
  rintro s r vs h ⟨v, hv, hw⟩
  rcases reach_xt hp n s r _ vs h v hv hw with hm | hm
  · cases hm
  · exact hm

theorem reach_bind {a : Timed α} {f : α → Timed β} {k : Nat} {w : β → Prop} (hf : ∀ v, Reach (f v) k w) : Reach (bind a f) k w := by
  intro s r v h hw
  obtain ⟨r1, v1, h1, h2⟩ := Res.andThen_ok.mp h
  exact Nat.le_trans (hf v1 _ _ _ h2 hw) (bind_depth_ok h1)

theorem reach_bind_left {a : Timed α} {f : α → Timed β} {k : Nat} {w : α → Prop} {w' : β → Prop} (ha : Reach a k w)
    (hf : ∀ {v s r v'}, (f v).run s = .ok r v' → w' v' → w v) : Reach (bind a f) k w' := by
  intro s r v h hw
  obtain ⟨r1, v1, h1, h2⟩ := Res.andThen_ok.mp h
  exact Nat.le_trans (ha _ _ _ h1 (hf h2 hw)) (bind_depth_ge s)

theorem reach_delimited {a : Timed Char} {b : Timed α} {c : Timed Char} {k : Nat} {w : α → Prop} (hb : Reach b k w) : Reach (delimited a b c) k w := by
  unfold delimited
  refine reach_bind fun _ => reach_bind_left hb fun h hw => ?_
  · obtain ⟨_, _, _, h⟩ := Res.andThen_ok.mp h
    injection h with _ h
    subst h
    exact hw

theorem reach_alts {pt : Timed ParsedTerm} {k : Nat} (hp : Reach pt (k + 1) fun t => Nested k (.term t)) (n : Nat) (hk : 0 < k) :
    Reach (parsedAltsWith F n pt) (k + 1) fun as => Nested k (.alts as) := by
  have h1 : Reach (terminated pt (not (tag F.productionSeparator))) (k + 1) fun t => Nested k (.term t) := by
    unfold terminated
    refine reach_bind_left hp fun h hw => ?_
    · obtain ⟨_, _, _, h⟩ := Res.andThen_ok.mp h
      injection h with _ h
      subst h
      exact hw
  have h2 := reach_xtList (d := expressionNext F) (reach_many1 h1 n) n
  intro s r as h hw
  refine h2 _ _ _ h ?_
  cases hw with
  | none => omega
  | alts he hw =>
    refine ⟨_, he, ?_⟩
    cases hw with
    | none => omega
    | terms ht hw => exact ⟨_, ht, hw⟩

theorem reach_alts_zero {pt : Timed ParsedTerm} (hp : ∀ s, 1 ≤ pt.depth s) (n : Nat) {s r as} (h : (parsedAltsWith F n pt).run s = .ok r as) :
    1 ≤ (parsedAltsWith F n pt).depth s := by
  cases n with
  | zero => cases h
  | succ n => exact Nat.le_trans (hp s) (altsWith_depth_ge F n pt s)

theorem reach_term (n : Nat) : (∀ s, n ≠ 0 → 1 ≤ (parsedTerm F n).depth s) ∧ ∀ k, Reach (parsedTerm F n) (k + 1) fun t => Nested k (.term t) := by
  induction n with
  | zero => exact ⟨fun s h => absurd rfl h, fun k s r v h _ => by cases h⟩
  | succ n ih =>
    refine ⟨fun s _ => by simp only [parsedTerm, deeper]; omega, fun k s r v h hw => ?_⟩
    cases k with
    | zero => simp only [parsedTerm, deeper]; omega
    | succ k =>
      have hA : ∀ s r as, (parsedAltsWith F n (parsedTerm F n)).run s = .ok r as → Nested k (.alts as) →
          k + 1 ≤ (parsedAltsWith F n (parsedTerm F n)).depth s := by
        intro s r as h hw
        cases k with
        | zero =>
          by_cases hn : n = 0
          · subst hn; cases h
          · exact reach_alts_zero (fun s => ih.1 s hn) n h
        | succ k => exact reach_alts (ih.2 (k + 1)) n (by omega) _ _ _ h hw
      have hG : Reach (parsedAnonymousGroup F n (parsedTerm F n)) (k + 1) fun t => Nested (k + 1) (.term t) := by
        unfold parsedAnonymousGroup
        refine reach_bind_left (reach_delimited hA) fun h hw => ?_
        obtain ⟨_, _, _, h⟩ := Res.andThen_ok.mp h
        injection h with _ h
        subst h
        cases hw with
        | group hw => exact hw
      have hO : Reach (parsedOptionalGroup F n (parsedTerm F n)) (k + 1) fun t => Nested (k + 1) (.term t) := by
        unfold parsedOptionalGroup
        refine reach_bind_left (reach_delimited hA) fun h hw => ?_
        obtain ⟨_, _, _, h⟩ := Res.andThen_ok.mp h
        injection h with _ h
        subst h
        cases hw with
        | optional hw => exact hw
      generalize hg : parsedAnonymousGroup F n (parsedTerm F n) = G at hG
      generalize ho : parsedOptionalGroup F n (parsedTerm F n) = O at hO
      simp only [parsedTerm, deeper, hg, ho] at h ⊢
      have simple : ∀ {t}, v = .simple t → False := by rintro t rfl; cases hw
      have h : Nom.alt parsedTerminal.run (Nom.alt (parsedNonterminal F).run (Nom.alt G.run O.run)) s = .ok r v := h
      rw [Nom.alt_ok] at h
      rcases h with h | ⟨e1, h⟩
      · obtain ⟨_, _, _, h⟩ := Res.andThen_ok.mp h
        obtain ⟨_, _, _, h⟩ := Res.andThen_ok.mp h
        injection h with _ h
        exact absurd h.symm simple
      rw [Nom.alt_ok] at h
      rcases h with h | ⟨e2, h⟩
      · obtain ⟨_, _, _, h⟩ := Res.andThen_ok.mp h
        obtain ⟨_, _, _, h⟩ := Res.andThen_ok.mp h
        injection h with _ h
        exact absurd h.symm simple
      rw [Nom.alt_ok] at h
      simp only [alt, e1, e2]
      rcases h with h | ⟨e3, h⟩
      · have := hG _ _ _ h hw
        omega
      · have := hO _ _ _ h hw
        simp only [e3]
        omega

theorem reach_grammar (n k : Nat) (hk : 0 < k) : Reach (parsedGrammarComplete F n) (k + 1) fun pg => ∃ p ∈ pg, Nested k (.alts p.rhs) := by
  have h1 : Reach (parsedProduction F n) (k + 1) fun p => Nested k (.alts p.rhs) := by
    unfold parsedProduction parsedProdRhs
    refine reach_bind fun lhs => reach_bind_left (reach_alts ((reach_term n).2 k) n hk) fun h hw => ?_
    obtain ⟨_, _, _, h⟩ := Res.andThen_ok.mp h
    injection h with _ h
    subst h
    exact hw
  have h2 : Reach (parsedGrammar F n) (k + 1) fun pg => ∃ p ∈ pg, Nested k (.alts p.rhs) := by
    unfold parsedGrammar preceded
    exact reach_bind fun _ => reach_many1 (reach_bind fun _ => h1) n
  intro s r pg h hw
  exact h2 _ _ _ (Bnf.allConsuming_ok.mp h).2 hw

theorem toParsed_flat {ps : List Production} {k p} (hp : p ∈ toParsed ps) (h : Nested k (.alts p.rhs)) : k = 0 := by
  induction ps with
  | nil => cases hp
  | cons q ps ih =>
    have : ∃ u, p = toParsedProd u q.rhs ∨ p ∈ toParsed ps := by
      cases hl : q.lhs <;> simp only [toParsed, hl, List.mem_cons] at hp <;> exact ⟨_, hp⟩
    obtain ⟨u, rfl | hp⟩ := this
    · cases h with
      | none => rfl
      | alts he h =>
        obtain ⟨e, _, rfl⟩ := List.mem_map.mp he
        cases h with
        | none => rfl
        | terms ht h =>
          obtain ⟨t, _, rfl⟩ := List.mem_map.mp ht
          cases h with
          | none => rfl
    · exact ih hp

theorem grammar_nested (hF : F.Regular) {pg s} (h : GrammarText F pg s) {p k} (hp : p ∈ pg) (hk : Nested (k + 1) (.alts p.rhs)) :
    k + 2 ≤ (grammarComplete F).depth s := by
  have h1 : (parsedGrammarComplete F (s.length + 1)).run s = .ok [] pg := by
    rw [parsedGrammarComplete_run]
    exact parsedGrammarComplete_complete hF h (Nat.lt_succ_self _)
  have h2 := reach_grammar (s.length + 1) (k + 1) (by omega) _ _ _ h1 ⟨p, hp, hk⟩
  simp only [grammarComplete]
  split
  · exact h2
  · cases hr : (allConsuming (plainGrammar F (s.length + 1))).run s with
    | err => exact h2
    | fuel =>
      exfalso
      simp only [allConsuming, plainGrammar_run] at hr
      exact plainGrammar_no_fuel hF.named (Nat.lt_succ_self _) hr
    | ok r g =>
      exfalso
      simp only [allConsuming, plainGrammar_run] at hr
      obtain ⟨rfl, _⟩ := Bnf.allConsuming_ok.mp hr
      have := grammarText_unique hF h (plainGrammar_sound hF.named hr).1
      subst this
      exact absurd (toParsed_flat hp hk) (by omega)

end Timed
end Bnf
