import Verif.Spec.Ambiguity
import Verif.Proofs.WorkCopies

/-! # Work and ambiguity -/

set_option autoImplicit false

namespace Bnf
open Spec

theorem forestCopies_append (g : Grammar) (a b : List ParseTreeNode) :
    forestCopies g (a ++ b) = forestCopies g a * forestCopies g b := by
  induction a with
  | nil => simp [forestCopies]
  | cons x xs ih => simp [forestCopies, ih, Nat.mul_assoc]

theorem timesListed_pos {g : Grammar} {l e} (h : HasAlt g l e) : 0 < timesListed g l e := by
  obtain ⟨p, hp, rfl, he⟩ := h
  have h1 : (if p.lhs = p.lhs then p.rhs.count e else 0) ≤ timesListed g p.lhs e :=
    List.single_le_sum (by simp) _ (List.mem_map.mpr ⟨p, hp, rfl⟩)
  rw [if_pos rfl] at h1
  exact (List.count_pos_iff.mpr he).trans_le h1

theorem forest_roots {g : Grammar} {ts ns} (h : IsForest g ts ns) : ns.map rootTerm = ts := by
  induction h with
  | nil => rfl
  | terminal _ ih => simp [rootTerm, ih]
  | nonterminal _ _ _ _ ih => simp [rootTerm, ih]

theorem forestCopies_pos {g : Grammar} {ts ns} (h : IsForest g ts ns) : 0 < forestCopies g ns := by
  induction h with
  | nil => simp [forestCopies]
  | terminal _ ih => simpa [forestCopies, nodeCopies] using ih
  | nonterminal ha hf _ ih1 ih2 =>
    simp only [forestCopies, nodeCopies, forest_roots hf]
    exact Nat.mul_pos (Nat.mul_pos (timesListed_pos ha) ih1) ih2

theorem _root_.Bnf.Spec.IsForest.drop {g : Grammar} {ts ns} (h : IsForest g ts ns) (k : Nat) : IsForest g (ts.drop k) (ns.drop k) := by
  induction h generalizing k with
  | nil => simpa using IsForest.nil
  | @terminal _ _ _ h ih => cases k with
    | zero => exact .terminal h
    | succ k => simpa using ih k
  | @nonterminal _ _ _ _ _ ha hf h _ ih => cases k with
    | zero => exact .nonterminal ha hf h
    | succ k => simpa using ih k

theorem yield_drop_le (ns : List ParseTreeNode) (k : Nat) : (Spec.yield (ns.drop k)).length ≤ (Spec.yield ns).length := by
  conv_rhs => rw [← List.take_append_drop k ns, spec_yield_append]
  simp

/-- Every alternative can be completed by few characters. -/
theorem padding_exists {g : Grammar} (hp : Productive g) : ∃ c, ∀ l e, HasAlt g l e →
    ∃ ns, IsForest g e.terms ns ∧ (Spec.yield ns).length ≤ c := by
  have key : ∀ L : List (Term × Expression), (∀ a ∈ L, HasAlt g a.1 a.2) →
      ∃ c, ∀ a ∈ L, ∃ ns, IsForest g a.2.terms ns ∧ (Spec.yield ns).length ≤ c := by
    intro L hL
    induction L with
    | nil => exact ⟨0, by simp⟩
    | cons a L ih =>
      obtain ⟨c, hc⟩ := ih fun b hb => hL b (List.mem_cons_of_mem _ hb)
      obtain ⟨ns, hns⟩ := forest_of_derivable (g := g) a.2.terms fun n hn => hp _ _ n (hL a List.mem_cons_self) hn
      refine ⟨c + (Spec.yield ns).length, fun b hb => ?_⟩
      rcases List.mem_cons.mp hb with rfl | hb
      · exact ⟨ns, hns, by omega⟩
      · obtain ⟨ms, h1, h2⟩ := hc b hb
        exact ⟨ms, h1, by omega⟩
  obtain ⟨c, hc⟩ := key (alternatives g) (by
    rintro ⟨l, e⟩ ha
    simp only [alternatives, List.mem_flatMap, List.mem_map, Prod.mk.injEq] at ha
    obtain ⟨p, hp, e', he, rfl, rfl⟩ := ha
    exact ⟨p, hp, rfl, he⟩)
  refine ⟨c, fun l e ⟨p, hp, hl, he⟩ => hc (l, e) ?_⟩
  simp only [alternatives, List.mem_flatMap, List.mem_map, Prod.mk.injEq]
  exact ⟨p, hp, e, he, hl, rfl⟩

/-- Place and range of a partial derivation. -/
def keyOf (x : Begun) : ((_ : Term × Expression) × Nat) × ((_ : Nat) × Nat) :=
  (⟨(x.lhs, x.alt), x.forest.length⟩, ⟨x.seen.length + (Spec.yield x.forest).length, x.seen.length⟩)

open scoped Classical in
noncomputable def keys (g : Grammar) (L : Nat) : Finset (((_ : Term × Expression) × Nat) × ((_ : Nat) × Nat)) :=
  ((alternatives g).toFinset.sigma fun a => Finset.range (a.2.terms.length + 1)) ×ˢ
    ((Finset.range (L + 1)).sigma fun j => Finset.range (j + 1))

open scoped Classical in
theorem keys_card (g : Grammar) (L : Nat) : (keys g L).card ≤ places g * ((L + 1) * (L + 2) / 2) := by
  rw [keys, Finset.card_product, Finset.card_sigma, Finset.card_sigma]
  simp only [Finset.card_range]
  rw [sum_triangle]
  refine Nat.mul_le_mul_right _ ?_
  unfold places
  have h : ∀ l : List (Term × Expression), (∑ a ∈ l.toFinset, (a.2.terms.length + 1)) ≤ (l.map fun a => a.2.terms.length + 1).sum := by
    intro l
    induction l with
    | nil => simp
    | cons a l ih =>
      rw [List.toFinset_cons, List.map_cons, List.sum_cons]
      by_cases ha : a ∈ l.toFinset
      · rw [Finset.insert_eq_of_mem ha]; omega
      · rw [Finset.sum_insert ha]; omega
  exact h _

theorem keyOf_mem {g : Grammar} {S : Term} {input : Str} {x : Begun} (hx : Viable g S input x) : keyOf x ∈ keys g input.length := by
  have hb := viable_range hx
  obtain ⟨ha, _, pre, post, r, hts, hf, hr⟩ := hx
  simp only [keys, keyOf, Finset.mem_product, Finset.mem_sigma, List.mem_toFinset, Finset.mem_range]
  refine ⟨⟨?_, ?_⟩, by omega, by omega⟩
  · obtain ⟨p, hp, hl, he⟩ := ha
    simp only [alternatives, List.mem_flatMap, List.mem_map]
    exact ⟨p, hp, x.alt, he, by rw [hl]⟩
  · rw [hts, ← forest_length hf]; simp

/-- Partial derivations at the same place and with the same range belong to trees of the same text. -/
theorem ambiguity_fibre {g : Grammar} {S : Term} {input : Str} {c : Nat} (hc : ∀ l e, HasAlt g l e →
      ∃ ns, IsForest g e.terms ns ∧ (Spec.yield ns).length ≤ c) {x0 : Begun} (h0 : Viable g S input x0) :
    ∃ (w : Str) (ps : List ParseTreeNode), w.length ≤ input.length + c ∧ ∀ x, Viable g S input x → keyOf x = keyOf x0 →
      IsParse g x0.lhs w ⟨x0.lhs, x.forest ++ ps⟩ ∧ x.seen = x0.seen ∧ x.lhs = x0.lhs ∧ x.alt = x0.alt ∧
      begunCopies g x ≤ copies g ⟨x0.lhs, x.forest ++ ps⟩ := by
  obtain ⟨u, l, e, ns⟩ := x0
  have hb := viable_range h0
  obtain ⟨ha, _, pre, post, r, hts, hf, hr⟩ := h0
  dsimp only at ha hts hf hr hb ⊢
  obtain ⟨fs, hfs, hle⟩ := hc _ _ ha
  refine ⟨Spec.yield ns ++ Spec.yield (fs.drop pre.length), fs.drop pre.length, ?_, ?_⟩
  · have := yield_drop_le fs pre.length
    rw [List.length_append]; omega
  · rintro ⟨u', l', e', ns'⟩ ⟨ha', _, pre', post', r', hts', hf', hr'⟩ hk
    dsimp only at ha' hts' hf' hr' ⊢
    simp only [keyOf, Prod.mk.injEq, Sigma.mk.injEq, heq_eq_eq] at hk
    obtain ⟨⟨⟨rfl, rfl⟩, h1⟩, h2, h3⟩ := hk
    have hpre : pre' = pre := by
      rw [hts] at hts'
      exact (List.append_inj hts'.symm (by rw [forest_length hf, forest_length hf', h1])).1
    subst hpre
    have hseen : u' = u := (List.append_inj (s₁ := u') (s₂ := u) (t₁ := Spec.yield ns' ++ r') (t₂ := Spec.yield ns ++ r)
      (by rw [← List.append_assoc, ← hr', hr, List.append_assoc]) h3).1
    subst hseen
    have hy : Spec.yield ns' = Spec.yield ns := by
      rw [hr', List.append_assoc, List.append_assoc] at hr
      exact (List.append_inj (List.append_cancel_left hr) (by omega)).1
    have hd : IsForest g post (fs.drop pre'.length) := by
      have := hfs.drop pre'.length
      rwa [hts, List.drop_left] at this
    have hall : IsForest g e'.terms (ns' ++ fs.drop pre'.length) := by rw [hts]; exact hf'.append hd
    refine ⟨⟨rfl, ⟨e', ha, hall⟩, ?_⟩, rfl, rfl, rfl, ?_⟩
    · dsimp only; rw [spec_yield_append, hy]
    · unfold begunCopies copies
      dsimp only
      rw [forest_roots hall, forestCopies_append, ← Nat.mul_assoc]
      exact Nat.le_mul_of_pos_right _ (forestCopies_pos hd)

open scoped Classical in
theorem viable_ambiguity {g : Grammar} {S : Term} {input : Str} {c : Nat} (hc : ∀ l e, HasAlt g l e →
      ∃ ns, IsForest g e.terms ns ∧ (Spec.yield ns).length ≤ c) {a : Nat → Nat} (ha : AmbiguityAtMost g a) :
    {x | Viable g S input x}.Finite ∧
      ∑ᶠ x ∈ {x | Viable g S input x}, begunCopies g x ≤ places g * ((input.length + 1) * (input.length + 2) / 2) * a (input.length + c) := by
  have hinj : ∀ {x0 : Begun} {ps : List ParseTreeNode} {s : Set Begun}, (∀ x ∈ s, x.seen = x0.seen ∧ x.lhs = x0.lhs ∧ x.alt = x0.alt) →
      Set.InjOn (fun x : Begun => (⟨x0.lhs, x.forest ++ ps⟩ : ParseTree)) s := by
    rintro x0 ps s hs ⟨u, l, e, ns⟩ hx ⟨u', l', e', ns'⟩ hy h
    obtain ⟨h1, h2, h3⟩ := hs _ hx
    obtain ⟨h1', h2', h3'⟩ := hs _ hy
    simp only [ParseTree.mk.injEq, true_and] at h
    dsimp only at h1 h2 h3 h1' h2' h3'
    rw [Begun.mk.injEq]
    exact ⟨h1.trans h1'.symm, h2.trans h2'.symm, h3.trans h3'.symm, List.append_cancel_right h⟩
  have hfin : {x | Viable g S input x}.Finite := by
    refine Set.Finite.of_finite_fibers keyOf ((keys g input.length).finite_toSet.subset ?_) ?_
    · rintro _ ⟨x, hx, rfl⟩
      exact keyOf_mem hx
    · rintro _ ⟨x0, h0, rfl⟩
      obtain ⟨w, ps, _, hfib⟩ := ambiguity_fibre hc h0
      refine Set.Finite.of_finite_image (f := fun x : Begun => (⟨x0.lhs, x.forest ++ ps⟩ : ParseTree))
        ((ha w.length x0.lhs w le_rfl).1.subset ?_) (hinj (x0 := x0) ?_)
      · rintro _ ⟨x, ⟨hx, hk⟩, rfl⟩
        exact (hfib x hx hk).1
      · rintro x ⟨hx, hk⟩
        exact ⟨(hfib x hx hk).2.1, (hfib x hx hk).2.2.1, (hfib x hx hk).2.2.2.1⟩
  refine ⟨hfin, ?_⟩
  rw [finsum_mem_eq_finite_toFinset_sum _ hfin,
    ← Finset.sum_fiberwise_of_maps_to (t := keys g input.length) (g := keyOf) (fun x hx => keyOf_mem (by simpa using hx))]
  refine (Finset.sum_le_card_nsmul _ _ (a (input.length + c)) ?_).trans ?_
  · intro k _
    by_cases hne : ∃ x0, Viable g S input x0 ∧ keyOf x0 = k
    · obtain ⟨x0, h0, rfl⟩ := hne
      obtain ⟨w, ps, hw, hfib⟩ := ambiguity_fibre hc h0
      obtain ⟨hf1, hf2⟩ := ha _ x0.lhs w hw
      refine le_trans ?_ hf2
      rw [finsum_mem_eq_finite_toFinset_sum _ hf1]
      have hmem : ∀ x ∈ hfin.toFinset.filter (fun x => keyOf x = keyOf x0), Viable g S input x ∧ keyOf x = keyOf x0 := by
        intro x hx; simpa using hx
      refine (Finset.sum_le_sum fun x hx => (hfib x (hmem x hx).1 (hmem x hx).2).2.2.2.2).trans ?_
      rw [← Finset.sum_image (f := fun t => copies g t) (g := fun x : Begun => (⟨x0.lhs, x.forest ++ ps⟩ : ParseTree))]
      · refine Finset.sum_le_sum_of_subset ?_
        intro t ht
        obtain ⟨x, hx, rfl⟩ := Finset.mem_image.mp ht
        simpa using (hfib x (hmem x hx).1 (hmem x hx).2).1
      · refine hinj (x0 := x0) fun x hx => ?_
        have := hfib x (hmem x hx).1 (hmem x hx).2
        exact ⟨this.2.1, this.2.2.1, this.2.2.2.1⟩
    · rw [Finset.filter_false_of_mem]
      · simp
      · intro x hx hk
        exact hne ⟨x, by simpa using hx, hk⟩
  · rw [smul_eq_mul]
    exact Nat.mul_le_mul_right _ (keys_card g _)

open scoped Classical in
/-- The trees of an expected term are among the partial derivations. -/
theorem viable_trees {g : Grammar} {S : Term} {input u w r : Str} {T : Term} (hex : Expected g S input u T) (hi : input = u ++ w ++ r)
    (hfin : {x | Viable g S input x}.Finite) :
    ReadAtMost g T w (∑ᶠ x ∈ {x | Viable g S input x}, begunCopies g x) := by
  let f : ParseTree → Begun := fun t => ⟨u, T, ⟨t.rhs.map rootTerm⟩, t.rhs⟩
  have hmem : ∀ t, IsParse g T w t → Viable g S input (f t) ∧ begunCopies g (f t) = copies g t := by
    rintro ⟨l, ns⟩ ⟨hl, ⟨e, ha, hf⟩, hy⟩
    dsimp only at hl ha hf hy
    subst hl
    have he : (⟨ns.map rootTerm⟩ : Expression) = e := by rw [forest_roots hf]
    refine ⟨⟨by simpa [f, he] using ha, hex, e.terms, [], r, by simp [f, forest_roots hf], hf, by simp [f, hy, hi]⟩, ?_⟩
    simp only [begunCopies, copies, f]
  have hinj : Set.InjOn f {t | IsParse g T w t} := by
    rintro ⟨l, ns⟩ h ⟨l', ns'⟩ h' e
    obtain ⟨rfl, _⟩ := h
    obtain ⟨h1, _⟩ := h'
    simp only [f, Begun.mk.injEq] at e
    dsimp only at h1
    rw [h1, e.2.2.2]
  have hf1 : {t | IsParse g T w t}.Finite := Set.Finite.of_finite_image (hfin.subset (by
    rintro _ ⟨t, ht, rfl⟩; exact (hmem t ht).1)) hinj
  refine ⟨hf1, ?_⟩
  rw [finsum_mem_eq_finite_toFinset_sum _ hf1, finsum_mem_eq_finite_toFinset_sum _ hfin]
  rw [Finset.sum_congr rfl (g := fun t => begunCopies g (f t)) fun t ht => ((hmem t (by simpa using ht)).2).symm,
    ← Finset.sum_image (f := fun x => begunCopies g x) (g := f)]
  · refine Finset.sum_le_sum_of_subset ?_
    intro x hx
    obtain ⟨t, ht, rfl⟩ := Finset.mem_image.mp hx
    simpa using (hmem t (by simpa using ht)).1
  · intro t ht t' ht' e
    exact hinj (by simpa using ht) (by simpa using ht') e

end Bnf
