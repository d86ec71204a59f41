import Verif.Props.Parsing
import Verif.Props.TreeChance
import Verif.Proofs.Nesting
import Verif.Proofs.Strategies

/-! # C110: how deep parsing and generating nest -/

set_option autoImplicit false

namespace Bnf.Props
open Bnf Spec

/-- The tree that an iterator returns is read by recursive calls, and it takes exactly as many of them nested within one another as the tree has expansions
nested within one another: with `k` or more the tree comes out, with fewer nothing does. -/
theorem C110_reading {it it1 : ParseTreeIter} {t : ParseTree} (h : Next it (some t) it1) :
    ∃ id, ∀ k, parseTree it1.st.tree it1.parser.parseGrammar k id = if treeNesting t ≤ k then some t else none := by
  obtain ⟨fuel, h⟩ := h
  unfold ParseTreeIter.next at h
  cases he : earley it.parser.parseGrammar fuel it.st with
  | outOfFuel => rw [he] at h; cases h
  | panic => rw [he] at h; cases h
  | returned r =>
    obtain ⟨o, st⟩ := r
    cases o with
    | none => rw [he] at h; simp at h
    | some id =>
      rw [he] at h
      simp only at h
      cases hp : parseTree st.tree it.parser.parseGrammar (st.tree.arena.length + 1) id with
      | none => rw [hp] at h; cases h
      | some t' =>
        rw [hp] at h
        simp only [Outcome.returned.injEq, Prod.mk.injEq, Option.some.injEq] at h
        obtain ⟨rfl, rfl⟩ := h
        refine ⟨id, fun k => ?_⟩
        by_cases hk : treeNesting t' ≤ k
        · rw [if_pos hk]; exact (parseTree_nesting hp).2 k hk
        · rw [if_neg hk]
          cases hr : parseTree st.tree it.parser.parseGrammar k id with
          | none => rfl
          | some u =>
            have h1 := (parseTree_nesting hr).2 (max k (st.tree.arena.length + 1)) (Nat.le_trans (parseTree_nesting hr).1 (Nat.le_max_left _ _))
            have h2 := (parseTree_nesting hp).2 (max k (st.tree.arena.length + 1)) (Nat.le_trans (parseTree_nesting hp).1 (Nat.le_max_right _ _))
            rw [h1, Option.some.injEq] at h2
            subst h2
            exact absurd (parseTree_nesting hr).1 hk

/-- In a grammar in which no nonterminal derives itself, a tree of `w` nests at most as many expansions as there are names with a production, times one more
than the characters of `w`. -/
theorem C110_bound {g : Grammar} (ha : Acyclic g) {S : Term} {w : Str} {t : ParseTree} (h : IsParse g S w t) :
    treeNesting t ≤ (g.productions.map (·.lhs)).toFinset.card * (w.length + 1) := by
  obtain ⟨rfl, ⟨e, he, hf⟩, rfl⟩ := h
  simp only [treeNesting, nodeNesting]
  cases hl : t.lhs with
  | terminal u =>
    rw [hl] at he
    have h0 : Term.terminal u ∈ declaredNames g := by
      obtain ⟨p, hp, hl, _⟩ := he
      exact List.mem_toFinset.mpr (List.mem_map.mpr ⟨p, hp, hl⟩)
    have h1 : ∀ m, (unitReach g m).card < (declaredNames g).card := fun m =>
      Finset.card_lt_card ((Finset.ssubset_iff_of_subset fun l hl => (mem_unitReach.mp hl).1).mpr
        ⟨_, h0, fun hc => by obtain ⟨_, k, hk, _⟩ := mem_unitReach.mp hc; cases hk⟩)
    have h2 : kidsNesting t.rhs ≤ (declaredNames g).card * (Spec.yield t.rhs).length + (declaredNames g).card - 1 := by
      refine kids_le_iff.mpr fun x hx => ?_
      cases x with
      | terminal v => exact Nat.zero_le _
      | nonterminal l ks =>
        obtain ⟨m, pre, post, nb, na, rfl, _, hns, _, _, e', he', hk⟩ := forest_part hf hx
        have h3 := nesting_acyclic ha _ m ks (Nat.le_refl _) e' he' hk
        have h4 := h1 m
        have h5 : (Spec.yield ks).length ≤ (Spec.yield t.rhs).length := by
          rw [hns, yield_parts]; simp [nodeYield]; omega
        have h6 := Nat.mul_le_mul_left (declaredNames g).card h5
        simp only [nodeNesting]
        omega
    have h3 : 1 ≤ (declaredNames g).card := Finset.card_pos.mpr ⟨_, h0⟩
    unfold declaredNames at h2 h3
    rw [Nat.mul_add, Nat.mul_one]
    omega
  | nonterminal n =>
    rw [hl] at he
    have h1 := nesting_acyclic ha _ n t.rhs (Nat.le_refl _) e he hf
    have h2 := unitReach_card (g := g) n
    unfold declaredNames at h1 h2
    rw [Nat.mul_add, Nat.mul_one]
    omega

/-- Conversely a long input needs a deep tree: with at most `B` terms in an alternative and at most `T` characters in a terminal, a tree with `d` nested
expansions spells at most `T * B ^ d` characters. -/
theorem C110_long_is_deep {g : Grammar} {B T : Nat} (hz : Sizes g B T) (hB : 1 ≤ B) {S : Term} {w : Str} {t : ParseTree} (h : IsParse g S w t) :
    w.length ≤ T * B ^ treeNesting t := by
  obtain ⟨rfl, ⟨e, he, hf⟩, rfl⟩ := h
  obtain ⟨p, hp, _, hep⟩ := he
  have h1 := yield_deep hz.terms (fun p hp e he u hu => hz.chars p hp e he u (.inl hu)) hB hf fun u hu => hz.chars p hp e hep u (.inl hu)
  have h2 := hz.terms p hp e hep
  simp only [treeNesting, nodeNesting]
  rw [Nat.pow_succ, ← Nat.mul_assoc]
  have h3 := Nat.mul_le_mul_right (T * B ^ kidsNesting t.rhs) h2
  rw [Nat.mul_comm B] at h3
  omega

/-- A call to generate that returns a sentence nests exactly as many calls as some derivation tree of the sentence nests expansions: with that many or more it
returns this sentence, with fewer it does not come to an end. -/
theorem C110_generating {g : Grammar} {σ : Type} {S : Strategy σ} (hS : Faithful S) (hd : AllDeclared g) {x : Str} (hx : Starts g x)
    {n : Nat} {st st' : σ} {w : Str} (h : g.generateSeededWithStrategy S n st = .done (.ok w) st') :
    ∃ t, IsParse g (.nonterminal x) w t ∧
      ∀ k, g.generateSeededWithStrategy S k st = if treeNesting t ≤ k then .done (.ok w) st' else .fuel := by
  obtain ⟨ht, p, ps, hp, hl⟩ := hx
  have hg : ∀ k, g.generateSeededWithStrategy S k st = traverse g S (always σ) k x 0 st := fun k => by
    unfold Grammar.generateSeededWithStrategy Grammar.generateWith
    simp only [ht, hp, hl]
    rfl
  rw [hg] at h
  obtain ⟨e, kids, he, hf, hy, hk⟩ := traverse_nesting hS hd n x 0 st st' w ⟨p, by rw [hp]; exact List.mem_cons_self, hl⟩ h
  exact ⟨⟨.nonterminal x, kids⟩, ⟨rfl, ⟨e, he, hf⟩, hy⟩, fun k => by rw [hg, hk]; rfl⟩

/-- Hence with a grammar in which no nonterminal derives itself, the calls nested while generating are at most linear in the length of the sentence. -/
theorem C110_generating_bound {g : Grammar} (ha : Acyclic g) {σ : Type} {S : Strategy σ} (hS : Faithful S) (hd : AllDeclared g) {x : Str} (hx : Starts g x)
    {n : Nat} {st st' : σ} {w : Str} (h : g.generateSeededWithStrategy S n st = .done (.ok w) st') :
    g.generateSeededWithStrategy S ((g.productions.map (·.lhs)).toFinset.card * (w.length + 1)) st = .done (.ok w) st' := by
  obtain ⟨t, ht, hk⟩ := C110_generating hS hd hx h
  rw [hk, if_pos (C110_bound ha ht)]

/-- The same for reading the trees of an input. -/
theorem C110_reading_bound {g : Grammar} (ha : Acyclic g) {S : Term} {w : Str} {it it1 it2 : ParseTreeIter} {ts : List ParseTree} {t : ParseTree}
    (ho : Opened g S w it) (hdr : Spec.Draws it ts it1) (h : Next it1 (some t) it2) :
    ∃ id, parseTree it2.st.tree it2.parser.parseGrammar ((g.productions.map (·.lhs)).toFinset.card * (w.length + 1)) id = some t := by
  obtain ⟨id, hk⟩ := C110_reading h
  have ht : IsParse g S w t := C01_soundness ho (hdr.append (.cons h .nil)) t (by simp)
  exact ⟨id, by rw [hk, if_pos (C110_bound ha ht)]⟩

/-! ## The bound cannot be improved beyond a constant factor, and needs its hypothesis -/

/-- `<s> ::= <s> 'x' | 'x'`. -/
def gXs : Grammar := ⟨[⟨.nonterminal ['s'], [⟨[.nonterminal ['s'], .terminal ['x']]⟩, ⟨[.terminal ['x']]⟩]⟩]⟩

theorem gXs_alt {l : Term} {e : Expression} (h : HasAlt gXs l e) :
    l = .nonterminal ['s'] ∧ (e.terms = [.nonterminal ['s'], .terminal ['x']] ∨ e.terms = [.terminal ['x']]) := by
  obtain ⟨p, hp, rfl, he⟩ := h
  simp only [gXs, List.mem_singleton] at hp
  subst hp
  simp only [List.mem_cons, List.not_mem_nil, or_false] at he
  rcases he with rfl | rfl
  · exact ⟨rfl, .inl rfl⟩
  · exact ⟨rfl, .inr rfl⟩

theorem gXs_deep : ∀ (s : Nat) (kids : List ParseTreeNode), sizeOf kids ≤ s → ∀ e, HasAlt gXs (.nonterminal ['s']) e → IsForest gXs e.terms kids →
    kidsNesting kids + 1 = (Spec.yield kids).length
  | s, kids, hs, e, he, hf => by
    rcases (gXs_alt he).2 with h | h
    · rw [h] at hf
      cases hf with
      | @nonterminal _ e' ks _ ns he' hk hf =>
        cases hf with
        | terminal hf =>
          cases hf
          have h1 : sizeOf ks < s := by simp at hs; omega
          have := gXs_deep (s - 1) ks (by omega) e' he' hk
          simp only [kidsNesting, nodeNesting, Spec.yield, nodeYield, List.length_append, List.length_cons, List.length_nil]
          omega
    · rw [h] at hf
      cases hf with
      | terminal hf =>
        cases hf
        simp [kidsNesting, nodeNesting, Spec.yield, nodeYield]
  termination_by s => s
  decreasing_by omega

/-- Depth linear in the input: every tree of an input of this grammar nests as many expansions as the input has characters, and there are inputs of every
length.  So the recursion of `parse_tree` (and of generation) is not bounded by the grammar. -/
theorem C110_linear_witness : (∀ w t, IsParse gXs (.nonterminal ['s']) w t → treeNesting t = w.length) ∧
    ∀ n, Derives gXs (.nonterminal ['s']) (List.replicate (n + 1) 'x') := by
  refine ⟨fun w t h => ?_, fun n => ?_⟩
  · obtain ⟨hl, ⟨e, he, hf⟩, rfl⟩ := h
    rw [hl] at he
    exact gXs_deep _ _ (Nat.le_refl _) e he hf
  · suffices h : ∃ e kids, HasAlt gXs (.nonterminal ['s']) e ∧ IsForest gXs e.terms kids ∧ Spec.yield kids = List.replicate (n + 1) 'x' by
      obtain ⟨e, kids, he, hf, hy⟩ := h
      exact ⟨⟨.nonterminal ['s'], kids⟩, rfl, ⟨e, he, hf⟩, hy⟩
    induction n with
    | zero =>
      exact ⟨⟨[.terminal ['x']]⟩, [.terminal ['x']], ⟨_, List.mem_singleton.mpr rfl, rfl, by simp⟩, .terminal .nil, rfl⟩
    | succ n ih =>
      obtain ⟨e, kids, he, hf, hy⟩ := ih
      refine ⟨⟨[.nonterminal ['s'], .terminal ['x']]⟩, [.nonterminal (.nonterminal ['s']) kids, .terminal ['x']],
        ⟨_, List.mem_singleton.mpr rfl, rfl, by simp⟩, .nonterminal he hf (.terminal .nil), ?_⟩
      simp only [Spec.yield, nodeYield, hy, List.append_nil]
      exact (List.replicate_succ' ..).symm

theorem gXs_acyclic : Acyclic gXs := by
  have hne : ∀ ns, IsForest gXs [.terminal ['x']] ns → Spec.yield ns ≠ [] := by
    intro ns h
    cases h with
    | terminal h => simp [Spec.yield, nodeYield]
  have step : ∀ n m, ¬ UnitStep gXs n m := by
    rintro n m ⟨e, pre, post, he, hts, ⟨nb, hb, hb0⟩, ⟨na, hp, hp0⟩⟩
    rcases (gXs_alt he).2 with h | h
    · rw [h] at hts
      cases pre with
      | nil =>
        simp only [List.nil_append, List.cons.injEq, Term.nonterminal.injEq] at hts
        rw [← hts.2] at hp
        exact hne na hp hp0
      | cons a pre =>
        simp only [List.cons_append, List.cons.injEq] at hts
        cases pre with
        | nil => simp at hts
        | cons b pre => simp at hts
    · rw [h] at hts
      cases pre with
      | nil => simp at hts
      | cons a pre => simp at hts
  intro n h
  cases h with
  | single h => exact step _ _ h
  | tail _ h => exact step _ _ h

-- the hypotheses of the bound hold for this grammar, and the bound is within one of the truth
example : Acyclic gXs ∧ ∀ w t, IsParse gXs (.nonterminal ['s']) w t → treeNesting t ≤ 1 * (w.length + 1) :=
  ⟨gXs_acyclic, fun _ _ h => C110_bound gXs_acyclic h⟩

/-- `<s> ::= <s> | 'x'`. -/
def gXSelf : Grammar := ⟨[⟨.nonterminal ['s'], [⟨[.nonterminal ['s']]⟩, ⟨[.terminal ['x']]⟩]⟩]⟩

/-- If a nonterminal derives itself, no bound holds: the input `x` has trees of every depth here. -/
theorem C110_cyclic_witness : ∀ n, ∃ t, IsParse gXSelf (.nonterminal ['s']) ['x'] t ∧ treeNesting t = n + 1 := by
  intro n
  suffices h : ∃ e kids, HasAlt gXSelf (.nonterminal ['s']) e ∧ IsForest gXSelf e.terms kids ∧ Spec.yield kids = ['x'] ∧ kidsNesting kids = n by
    obtain ⟨e, kids, he, hf, hy, hk⟩ := h
    exact ⟨⟨.nonterminal ['s'], kids⟩, ⟨rfl, ⟨e, he, hf⟩, hy⟩, by simp [treeNesting, nodeNesting, hk]⟩
  induction n with
  | zero => exact ⟨⟨[.terminal ['x']]⟩, [.terminal ['x']], ⟨_, List.mem_singleton.mpr rfl, rfl, by simp⟩, .terminal .nil, rfl, rfl⟩
  | succ n ih =>
    obtain ⟨e, kids, he, hf, hy, hk⟩ := ih
    exact ⟨⟨[.nonterminal ['s']]⟩, [.nonterminal (.nonterminal ['s']) kids], ⟨_, List.mem_singleton.mpr rfl, rfl, by simp⟩,
      .nonterminal he hf .nil, by simp [Spec.yield, nodeYield, hy], by simp [kidsNesting, nodeNesting, hk]⟩

-- generating `xx`: the run exists, so the theorems about generation apply to it
example : AllDeclared gXs ∧ Starts gXs ['s'] ∧ Faithful (RandomWalk tapeRng) ∧ Sizes gXs 2 1 := by
  refine ⟨?_, ⟨by rfl, _, _, rfl, rfl⟩, randomWalk_faithful, ?_, ?_⟩ <;>
    · intro p hp e he
      simp only [gXs, List.mem_singleton] at hp
      subst hp
      simp only [List.mem_cons, List.not_mem_nil, or_false] at he
      rcases he with rfl | rfl <;> simp [gXs]

example : ∃ st', gXs.generateSeededWithStrategy (RandomWalk tapeRng) 2 ([0, 1], 1) = .done (.ok ['x', 'x']) st' := ⟨_, rfl⟩

end Bnf.Props
