import Verif.Model.Editing
import Verif.Spec.Overwrite

/-! # Overwriting the terminals of a grammar (for C126) -/

set_option autoImplicit false

namespace Bnf
open Spec

theorem writeAt_next {α : Type} (f : α → α) (l : List α) (x : α) (r : List α) : writeAt f (l ++ x :: r) l.length = l ++ f x :: r := by
  induction l with
  | nil => rfl
  | cons y l ih => simp [writeAt, ih]

theorem forEachMut_eq {α : Type} (f : α → α) (l : List α) : forEachMut f l = l.map f := by
  suffices h : ∀ (r a : List α), (List.range' a.length r.length).foldl (writeAt f) (a.map f ++ r) = (a ++ r).map f by
    have := h l []
    simpa [forEachMut, List.range_eq_range'] using this
  intro r
  induction r with
  | nil => intro a; simp
  | cons x r ih =>
    intro a
    rw [List.length_cons, List.range'_succ, List.foldl_cons]
    have h1 : writeAt f (a.map f ++ x :: r) a.length = (a ++ [x]).map f ++ r := by
      have := writeAt_next f (a.map f) x r
      rw [List.length_map] at this
      rw [this]
      simp
    rw [h1]
    have h2 := ih (a ++ [x])
    rw [List.length_append, List.length_singleton] at h2
    rw [h2]
    simp

theorem forall₂_append_left {α β : Type} {R : α → β → Prop} : ∀ {a b : List α} {l : List β}, List.Forall₂ R (a ++ b) l →
    ∃ l1 l2, List.Forall₂ R a l1 ∧ List.Forall₂ R b l2 ∧ l = l1 ++ l2
  | [], _, l, h => ⟨[], l, .nil, h, rfl⟩
  | x :: a, b, _, .cons h1 h2 => by
    obtain ⟨l1, l2, h3, h4, rfl⟩ := forall₂_append_left h2
    exact ⟨_ :: l1, l2, .cons h1 h3, h4, rfl⟩

/-- The replacement of one term. -/
def overwriteTerm (f : Str → Term) : Term → Term
  | .terminal u => f u
  | .nonterminal n => .nonterminal n

theorem overwrite_eq (f : Str → Term) (g : Grammar) :
    g.overwriteTerminals f = ⟨g.productions.map fun p => ⟨p.lhs, p.rhs.map fun e => ⟨e.terms.map (overwriteTerm f)⟩⟩⟩ := by
  unfold Grammar.overwriteTerminals
  simp only [forEachMut_eq]
  rfl

theorem overwrite_alt {f : Str → Term} {g : Grammar} {T : Term} {e' : Expression} :
    HasAlt (g.overwriteTerminals f) T e' ↔ ∃ e, HasAlt g T e ∧ e' = ⟨e.terms.map (overwriteTerm f)⟩ := by
  rw [overwrite_eq]
  constructor
  · rintro ⟨p', hp', rfl, he'⟩
    obtain ⟨p, hp, rfl⟩ := List.mem_map.mp hp'
    obtain ⟨e, he, rfl⟩ := List.mem_map.mp he'
    exact ⟨e, ⟨p, hp, rfl, he⟩, rfl⟩
  · rintro ⟨e, ⟨p, hp, rfl, he⟩, rfl⟩
    exact ⟨_, List.mem_map_of_mem hp, rfl, List.mem_map_of_mem he⟩

theorem behind_alt {g g₂ : Grammar} {T : Term} {e : Expression} : HasAlt (behind g g₂) T e ↔ HasAlt g T e ∨ HasAlt g₂ T e := by
  constructor
  · rintro ⟨p, hp, hl, he⟩
    rcases List.mem_append.mp hp with hp | hp
    · exact .inl ⟨p, hp, hl, he⟩
    · exact .inr ⟨p, hp, hl, he⟩
  · rintro (⟨p, hp, hl, he⟩ | ⟨p, hp, hl, he⟩)
    · exact ⟨p, List.mem_append_left _ hp, hl, he⟩
    · exact ⟨p, List.mem_append_right _ hp, hl, he⟩

theorem defines_of_alt {g : Grammar} {T : Term} {e : Expression} (h : HasAlt g T e) : Defines g T := by
  obtain ⟨p, hp, hl, _⟩ := h
  exact ⟨p, hp, hl⟩

theorem mentions_of_alt {g : Grammar} {T t : Term} {e : Expression} (h : HasAlt g T e) (ht : t ∈ e.terms) : Mentions g t := by
  obtain ⟨p, hp, _, he⟩ := h
  exact ⟨p, hp, .inr ⟨e, he, ht⟩⟩

theorem forest_mono {g g' : Grammar} (hg : ∀ T e, HasAlt g T e → HasAlt g' T e) {ts ns} (h : IsForest g ts ns) : IsForest g' ts ns := by
  induction h with
  | nil => exact .nil
  | terminal _ ih => exact .terminal ih
  | nonterminal ha _ _ ih1 ih2 => exact .nonterminal (hg _ _ ha) ih1 ih2

section
variable {f : Str → Term} {g g₂ : Grammar}

/-- Below what replaces a terminal only the second grammar is used. -/
theorem forest_second (hs : Separate f g g₂) {ts ns} (h : IsForest (behind (g.overwriteTerminals f) g₂) ts ns)
    (hts : ∀ t ∈ ts, ¬ Defines g t) : IsForest g₂ ts ns := by
  induction h with
  | nil => exact .nil
  | terminal _ ih => exact .terminal (ih fun t ht => hts t (List.mem_cons_of_mem _ ht))
  | @nonterminal n e kids ts ns ha _ _ ih1 ih2 =>
    have ha2 : HasAlt g₂ (.nonterminal n) e := by
      rcases behind_alt.mp ha with ha | ha
      · obtain ⟨e0, ha, _⟩ := overwrite_alt.mp ha
        exact absurd (defines_of_alt ha) (hts _ (List.mem_cons_self ..))
      · exact ha
    exact .nonterminal ha2 (ih1 fun t ht hd => hs.apart₂ t hd (mentions_of_alt ha2 ht)) (ih2 fun t ht => hts t (List.mem_cons_of_mem _ ht))

theorem forest_replaced (hs : Separate f g g₂) {ts' ns} (h : IsForest (behind (g.overwriteTerminals f) g₂) ts' ns) :
    ∀ ts : List Term, ts' = ts.map (overwriteTerm f) → (∀ t ∈ ts, Mentions g t) →
      ∃ ns0, IsForest g ts ns0 ∧ ∃ ws : List Str, List.Forall₂ (fun u v => SeqSpells g₂ [f u] v) (leaves ns0) ws ∧ ws.flatten = yield ns := by
  induction h with
  | nil =>
    intro ts he _
    have : ts = [] := by simpa using he.symm
    subst this
    exact ⟨[], .nil, [], by simp [leaves], by simp [yield]⟩
  | @terminal s ts' ns _ ih =>
    intro ts he hm
    match ts, he with
    | t :: ts, he =>
      rw [List.map_cons, List.cons.injEq] at he
      obtain ⟨h1, h2⟩ := he
      obtain ⟨ns0, hf, ws, hw, hy⟩ := ih ts h2 fun t ht => hm t (List.mem_cons_of_mem _ ht)
      cases t with
      | nonterminal n => cases h1
      | terminal u =>
        refine ⟨.terminal u :: ns0, .terminal hf, s :: ws, ?_, ?_⟩
        · rw [leaves, nodeLeaves, List.singleton_append]
          refine .cons ⟨[.terminal s], ?_, by simp [yield, nodeYield]⟩ hw
          have h1 : f u = .terminal s := h1.symm
          rw [h1]
          exact .terminal .nil
        · rw [List.flatten_cons, hy, yield, nodeYield]
  | @nonterminal n e kids ts' ns ha hk _ ih1 ih2 =>
    intro ts he hm
    match ts, he with
    | t :: ts, he =>
      rw [List.map_cons, List.cons.injEq] at he
      obtain ⟨h1, h2⟩ := he
      obtain ⟨ns0, hf, ws, hw, hy⟩ := ih2 ts h2 fun t ht => hm t (List.mem_cons_of_mem _ ht)
      cases t with
      | nonterminal m =>
        injection h1 with h1
        subst h1
        have ha1 : HasAlt (g.overwriteTerminals f) (.nonterminal n) e := by
          rcases behind_alt.mp ha with ha | ha
          · exact ha
          · exact absurd (hm _ (List.mem_cons_self ..)) (hs.apart₁ _ (defines_of_alt ha))
        obtain ⟨e0, ha0, rfl⟩ := overwrite_alt.mp ha1
        obtain ⟨ks0, hkf, vs, hv, hvy⟩ := ih1 e0.terms rfl fun t ht => mentions_of_alt ha0 ht
        refine ⟨.nonterminal (.nonterminal n) ks0 :: ns0, .nonterminal ha0 hkf hf, vs ++ ws, ?_, ?_⟩
        · rw [leaves, nodeLeaves]
          exact List.rel_append hv hw
        · rw [List.flatten_append, hvy, hy, yield, nodeYield]
      | terminal u =>
        have h1 : f u = .nonterminal n := h1.symm
        have hnd : ¬ Defines g (.nonterminal n) := h1 ▸ hs.apart₃ u
        refine ⟨.terminal u :: ns0, .terminal hf, yield kids :: ws, ?_, ?_⟩
        · rw [leaves, nodeLeaves, List.singleton_append]
          refine .cons ⟨[.nonterminal (.nonterminal n) kids], ?_, by simp [yield, nodeYield]⟩ hw
          rw [h1]
          exact forest_second hs (.nonterminal ha hk .nil) fun t ht => by rw [List.mem_singleton.mp ht]; exact hnd
        · rw [List.flatten_cons, hy, yield, nodeYield]

theorem forest_filled {ts ns0} (h : IsForest g ts ns0) : ∀ ws : List Str, List.Forall₂ (fun u v => SeqSpells g₂ [f u] v) (leaves ns0) ws →
    ∃ ns, IsForest (behind (g.overwriteTerminals f) g₂) (ts.map (overwriteTerm f)) ns ∧ ws.flatten = yield ns := by
  induction h with
  | nil =>
    intro ws hw
    rw [leaves] at hw
    cases hw
    exact ⟨[], .nil, by simp [yield]⟩
  | @terminal u ts ns0 _ ih =>
    intro ws hw
    rw [leaves, nodeLeaves, List.singleton_append] at hw
    cases hw with
    | @cons _ v _ ws h1 h2 =>
      obtain ⟨ns, hf, hy⟩ := ih ws h2
      obtain ⟨ms, hm, rfl⟩ := h1
      have hm' := forest_mono (g' := behind (g.overwriteTerminals f) g₂) (fun T e h => behind_alt.mpr (.inr h)) hm
      rw [List.flatten_cons, hy]
      show ∃ ns', IsForest _ (f u :: ts.map (overwriteTerm f)) ns' ∧ _
      generalize f u = x at hm'
      cases hm' with
      | terminal hn => cases hn; exact ⟨_, .terminal hf, by simp [yield, nodeYield]⟩
      | nonterminal ha hk hn => cases hn; exact ⟨_, .nonterminal ha hk hf, by simp [yield, nodeYield]⟩
  | @nonterminal n e kids ts ns0 ha _ _ ih1 ih2 =>
    intro ws hw
    rw [leaves, nodeLeaves] at hw
    obtain ⟨vs, ws', hv, hw', rfl⟩ := forall₂_append_left hw
    obtain ⟨ks, hk, hky⟩ := ih1 vs hv
    obtain ⟨ns, hf, hy⟩ := ih2 ws' hw'
    refine ⟨.nonterminal (.nonterminal n) ks :: ns, ?_, ?_⟩
    · exact .nonterminal (e := ⟨e.terms.map (overwriteTerm f)⟩) (behind_alt.mpr (.inl (overwrite_alt.mpr ⟨e, ha, rfl⟩))) hk hf
    · rw [List.flatten_append, hky, hy, yield, nodeYield]
end

/-! ### Terminals for terminals -/

section
variable {k : Str → Str} {g : Grammar}

theorem forest_with {ts ns} (h : IsForest g ts ns) :
    IsForest (g.overwriteTerminals fun u => .terminal (k u)) (ts.map (overwriteTerm fun u => .terminal (k u))) (nodesWith k ns) := by
  induction h with
  | nil => exact .nil
  | terminal _ ih => rw [nodesWith, nodeWith]; exact .terminal ih
  | nonterminal ha _ _ ih1 ih2 =>
    rw [nodesWith, nodeWith]
    exact .nonterminal (overwrite_alt.mpr ⟨_, ha, rfl⟩) ih1 ih2

theorem forest_without {ts' ns'} (h : IsForest (g.overwriteTerminals fun u => .terminal (k u)) ts' ns') :
    ∀ ts : List Term, ts' = ts.map (overwriteTerm fun u => .terminal (k u)) → ∃ ns, IsForest g ts ns ∧ ns' = nodesWith k ns := by
  induction h with
  | nil =>
    intro ts he
    have : ts = [] := by simpa using he.symm
    subst this
    exact ⟨[], .nil, by rw [nodesWith]⟩
  | @terminal s ts' ns _ ih =>
    intro ts he
    match ts, he with
    | t :: ts, he =>
      rw [List.map_cons, List.cons.injEq] at he
      obtain ⟨h1, h2⟩ := he
      obtain ⟨ns0, hf, rfl⟩ := ih ts h2
      cases t with
      | nonterminal n => cases h1
      | terminal u => cases h1; exact ⟨.terminal u :: ns0, .terminal hf, by rw [nodesWith, nodeWith]⟩
  | @nonterminal n e kids ts' ns ha hk _ ih1 ih2 =>
    intro ts he
    match ts, he with
    | t :: ts, he =>
      rw [List.map_cons, List.cons.injEq] at he
      obtain ⟨h1, h2⟩ := he
      obtain ⟨ns0, hf, rfl⟩ := ih2 ts h2
      cases t with
      | terminal u => cases h1
      | nonterminal m =>
        injection h1 with h1
        subst h1
        obtain ⟨e0, ha0, rfl⟩ := overwrite_alt.mp ha
        obtain ⟨ks, hk0, rfl⟩ := ih1 e0.terms rfl
        exact ⟨.nonterminal (.nonterminal n) ks :: ns0, .nonterminal ha0 hk0 hf, by rw [nodesWith, nodeWith]⟩

mutual
theorem nodeYield_with : ∀ n : ParseTreeNode, nodeYield (nodeWith k n) = ((nodeLeaves n).map k).flatten
  | .terminal s => by simp [nodeWith, nodeYield, nodeLeaves]
  | .nonterminal l rhs => by rw [nodeWith, nodeYield, nodeLeaves, yield_with rhs]

theorem yield_with : ∀ ns : List ParseTreeNode, yield (nodesWith k ns) = ((leaves ns).map k).flatten
  | [] => by simp [nodesWith, yield, leaves]
  | n :: ns => by rw [nodesWith, yield, leaves, nodeYield_with n, yield_with ns, List.map_append, List.flatten_append]
end

mutual
theorem nodeYield_leaves : ∀ n : ParseTreeNode, nodeYield n = (nodeLeaves n).flatten
  | .terminal s => by simp [nodeYield, nodeLeaves]
  | .nonterminal l rhs => by rw [nodeYield, nodeLeaves, yield_leaves rhs]

theorem yield_leaves : ∀ ns : List ParseTreeNode, yield ns = (leaves ns).flatten
  | [] => by simp [yield, leaves]
  | n :: ns => by rw [yield, leaves, nodeYield_leaves n, yield_leaves ns, List.flatten_append]
end
end

end Bnf
