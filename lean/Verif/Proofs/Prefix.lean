import Verif.Proofs.Work
import Verif.Spec.Prefix

/-! Viable partial derivations of grammars in which a text has at most one beginning of each kind. -/

set_option autoImplicit false

namespace Bnf
open Spec

/-- Two forests for the same terms of which both spell the beginning of the same text. -/
theorem forest_prefix_unique {g : Grammar} (hg : PrefixUnique g) {ts ns} (h : IsForest g ts ns) : ∀ ns' r r', IsForest g ts ns' →
    Spec.yield ns ++ r = Spec.yield ns' ++ r' → ns = ns' ∧ r = r' := by
  induction h with
  | nil => intro ns' r r' h e; cases h; exact ⟨rfl, by simpa [Spec.yield] using e⟩
  | @terminal s ts ns _ ih =>
    intro ns' r r' h e
    cases h with
    | @terminal _ _ ns' h =>
      simp only [Spec.yield, nodeYield, List.append_assoc, List.append_cancel_left_eq] at e
      obtain ⟨rfl, rfl⟩ := ih ns' r r' h e
      exact ⟨rfl, rfl⟩
  | @nonterminal n x ks ts ns ha hk _ _ ih =>
    intro ns' r r' h e
    cases h with
    | @nonterminal _ x' ks' _ ns' ha' hk' h =>
      simp only [Spec.yield, nodeYield, List.append_assoc] at e
      have key : ∀ {k k' : List ParseTreeNode} {y y'} {w w' : Str}, HasAlt g (.nonterminal n) y → HasAlt g (.nonterminal n) y' →
          IsForest g y.terms k → IsForest g y'.terms k' → (∃ v, Spec.yield k' = Spec.yield k ++ v) → k = k' := by
        rintro k k' y y' w w' h1 h2 h3 h4 ⟨v, hv⟩
        have := hg (.nonterminal n) (Spec.yield k) v ⟨.nonterminal n, k⟩ ⟨.nonterminal n, k'⟩ ⟨rfl, ⟨y, h1, h3⟩, rfl⟩ ⟨rfl, ⟨y', h2, h4⟩, hv⟩
        injection this
      have hks : ks = ks' := by
        rcases List.append_eq_append_iff.mp e with ⟨v, hv, _⟩ | ⟨v, hv, _⟩
        · exact key (w := []) (w' := []) ha ha' hk hk' ⟨v, hv⟩
        · exact (key (w := []) (w' := []) ha' ha hk' hk ⟨v, hv⟩).symm
      subst hks
      obtain ⟨rfl, rfl⟩ := ih ns' r r' h (List.append_cancel_left e)
      exact ⟨rfl, rfl⟩

theorem viable_prefix_injOn {g : Grammar} {S : Term} {input : Str} (hg : PrefixUnique g) :
    Set.InjOn (fun x : Begun => (((x.lhs, x.alt), x.forest.length), x.seen.length)) {x | Viable g S input x} := by
  rintro ⟨u, l, e, ns⟩ ⟨ha, _, pre, post, r, hts, hf, hr⟩ ⟨u', l', e', ns'⟩ ⟨_, _, pre', post', r', hts', hf', hr'⟩ heq
  simp only [Prod.mk.injEq] at heq hts hts' hf hf' hr hr' ha
  obtain ⟨⟨⟨rfl, rfl⟩, h1⟩, h3⟩ := heq
  have hpre : pre = pre' := by
    rw [hts] at hts'
    exact (List.append_inj hts' (by rw [forest_length hf, forest_length hf', h1])).1
  subst hpre
  obtain ⟨rfl, h4⟩ := List.append_inj (s₁ := u) (s₂ := u') (t₁ := Spec.yield ns ++ r) (t₂ := Spec.yield ns' ++ r')
    (by rw [← List.append_assoc, ← hr, hr', List.append_assoc]) h3
  obtain ⟨rfl, _⟩ := forest_prefix_unique hg hf ns' r r' hf' h4
  rfl

theorem viable_linear {g : Grammar} {S : Term} {input : Str} (hn : (alternatives g).Nodup) (hg : PrefixUnique g) :
    {x | Viable g S input x}.Finite ∧ {x | Viable g S input x}.ncard ≤ places g * (input.length + 1) := by
  classical
  let A : Finset ((_ : Term × Expression) × Nat) := (alternatives g).toFinset.sigma fun a => Finset.range (a.2.terms.length + 1)
  have hA : A.card = places g := by
    rw [Finset.card_sigma]
    simp only [Finset.card_range]
    rw [List.sum_toFinset _ hn]
    rfl
  let B : Finset Nat := Finset.range (input.length + 1)
  let f : Begun → ((_ : Term × Expression) × Nat) × Nat := fun x => (⟨(x.lhs, x.alt), x.forest.length⟩, x.seen.length)
  have hmaps : ∀ x ∈ {x | Viable g S input x}, f x ∈ ((A ×ˢ B : Finset _) : Set _) := by
    intro x hx
    have hb := viable_range hx
    obtain ⟨ha, _, pre, post, r, hts, hf, hr⟩ := hx
    simp only [Finset.coe_product, Set.mem_prod, Finset.mem_coe, A, B, Finset.mem_sigma, List.mem_toFinset, Finset.mem_range, f]
    refine ⟨⟨?_, ?_⟩, by omega⟩
    · obtain ⟨p, hp, hl, he⟩ := ha
      simp only [alternatives, List.mem_flatMap, List.mem_map]
      exact ⟨p, hp, x.alt, he, by rw [hl]⟩
    · rw [hts, ← forest_length hf]; simp
  have hinj : Set.InjOn f {x | Viable g S input x} := by
    intro x hx y hy h
    refine viable_prefix_injOn hg hx hy ?_
    simp only [f, Prod.mk.injEq, Sigma.mk.injEq, heq_eq_eq] at h
    simp only [Prod.mk.injEq]
    exact h
  have hfin : {x | Viable g S input x}.Finite := Set.Finite.of_finite_image ((Finset.finite_toSet (A ×ˢ B)).subset
    (by rintro _ ⟨x, hx, rfl⟩; exact hmaps x hx)) hinj
  refine ⟨hfin, ?_⟩
  have hB : B.card = input.length + 1 := Finset.card_range _
  rw [← hA, ← hB, ← Finset.card_product, ← Set.ncard_coe_finset]
  exact Set.ncard_le_ncard_of_injOn f hmaps hinj (Finset.finite_toSet _)

theorem marked_forest {g : Grammar} (hm : Marked g) {ts ns} (h : IsForest g ts ns) : ∀ ns' r r', IsForest g ts ns' →
    Spec.yield ns ++ r = Spec.yield ns' ++ r' → ns = ns' ∧ r = r' := by
  have begins : ∀ {l : Term} {e : Expression} {ks}, HasAlt g l e → IsForest g e.terms ks →
      ∃ c s ts w, e.terms = .terminal (c :: s) :: ts ∧ Spec.yield ks = c :: w := by
    intro l e ks ha hk
    obtain ⟨c, s, ts, he⟩ := hm.1 l e ha
    rw [he] at hk
    cases hk with
    | @terminal _ _ ns _ => exact ⟨c, s, ts, s ++ Spec.yield ns, he, by simp only [Spec.yield, nodeYield, List.cons_append]⟩
  induction h with
  | nil => intro ns' r r' h e; cases h; exact ⟨rfl, by simpa [Spec.yield] using e⟩
  | @terminal s ts ns _ ih =>
    intro ns' r r' h e
    cases h with
    | @terminal _ _ ns' h =>
      simp only [Spec.yield, nodeYield, List.append_assoc, List.append_cancel_left_eq] at e
      obtain ⟨rfl, rfl⟩ := ih ns' r r' h e
      exact ⟨rfl, rfl⟩
  | @nonterminal n x ks ts ns ha hk _ ih1 ih2 =>
    intro ns' r r' h e
    cases h with
    | @nonterminal _ x' ks' _ ns' ha' hk' h =>
      simp only [Spec.yield, nodeYield, List.append_assoc] at e
      obtain ⟨c, s, t, w, h1, h2⟩ := begins ha hk
      obtain ⟨c', s', t', w', h1', h2'⟩ := begins ha' hk'
      have hc : c = c' := by
        rw [h2, h2'] at e
        simp only [List.cons_append, List.cons.injEq] at e
        exact e.1
      subst hc
      have hx := hm.2 _ x x' c s s' t t' ha ha' h1 h1'
      subst hx
      obtain ⟨rfl, e'⟩ := ih1 ks' _ _ hk' e
      obtain ⟨rfl, rfl⟩ := ih2 ns' _ _ h e'
      exact ⟨rfl, rfl⟩

theorem marked_prefixUnique {g : Grammar} (hm : Marked g) : PrefixUnique g := by
  rintro T w v ⟨l, ks⟩ ⟨l', ks'⟩ ⟨rfl, ⟨e, ha, hk⟩, hy⟩ ⟨h, ⟨e', ha', hk'⟩, hy'⟩
  simp only at h ha ha' hk hk' hy hy'
  subst h
  obtain ⟨c, s, ts, h1⟩ := hm.1 _ e ha
  obtain ⟨c', s', ts', h1'⟩ := hm.1 _ e' ha'
  have hc : c = c' := by
    rw [h1] at hk; rw [h1'] at hk'
    cases hk; cases hk'
    rw [← hy] at hy'
    simp only [Spec.yield, nodeYield, List.cons_append, List.cons.injEq] at hy'
    exact hy'.1.symm
  subst hc
  have hx := hm.2 _ e e' c s s' ts ts' ha ha' h1 h1'
  subst hx
  obtain ⟨rfl, _⟩ := marked_forest hm hk ks' v [] hk' (by rw [hy, hy', List.append_nil])
  rfl

end Bnf
