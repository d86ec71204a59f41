import Verif.Proofs.Nesting
import Verif.Proofs.Ambiguity
import Verif.Proofs.AmbiguityExample
import Verif.Proofs.WorkCopies
import Verif.Spec.Display
import Mathlib.Tactic.Linarith
import Mathlib.Tactic.Ring

/-! Sizes and numbers of the derivation trees of grammars in which nothing derives itself. -/

set_option autoImplicit false

namespace Bnf.Exponential
open Bnf Spec

variable {g : Grammar}

/-! ## Trees that spell nothing -/

/-- Nodes in a tree in which every node has at most `B` children, by depth. -/
def full (B : Nat) : Nat → Nat
  | 0 => 1
  | k + 1 => 1 + B * full B k

theorem full_pos (B k : Nat) : 1 ≤ full B k := by cases k <;> simp [full]

theorem full_step {B : Nat} (hB : 1 ≤ B) (k : Nat) : full B k ≤ full B (k + 1) := by
  have := Nat.mul_le_mul_right (full B k) hB
  simp only [full]; omega

theorem full_mono {B : Nat} (hB : 1 ≤ B) {j k : Nat} (h : j ≤ k) : full B j ≤ full B k := by
  induction h with
  | refl => exact Nat.le_refl _
  | step _ ih => exact Nat.le_trans ih (full_step hB _)

theorem nodesCount_append (a b : List ParseTreeNode) : nodesCount (a ++ b) = nodesCount a + nodesCount b := by
  induction a with
  | nil => simp [nodesCount]
  | cons x a ih => simp [nodesCount, ih, Nat.add_assoc]

theorem nodesCount_le {D : Nat} : ∀ {ns : List ParseTreeNode}, (∀ x ∈ ns, nodeCount x ≤ D) → nodesCount ns ≤ ns.length * D
  | [], _ => by simp [nodesCount]
  | x :: ns, h => by
    have h1 := h x List.mem_cons_self
    have h2 := nodesCount_le fun y hy => h y (List.mem_cons_of_mem _ hy)
    simp only [nodesCount, List.length_cons, Nat.add_mul, Nat.one_mul]
    omega

theorem empty_parts {nb na : List ParseTreeNode} {x : ParseTreeNode} (h : Spec.yield (nb ++ x :: na) = []) :
    Spec.yield nb = [] ∧ nodeYield x = [] ∧ Spec.yield na = [] := by
  rw [yield_parts] at h
  simpa using h

theorem empty_size (ha : Acyclic g) {B : Nat} (hB : 1 ≤ B) (hz : ∀ p ∈ g.productions, ∀ e ∈ p.rhs, e.terms.length ≤ B) :
    ∀ (s : Nat) (n : Str) (kids : List ParseTreeNode), sizeOf kids ≤ s → ∀ e, HasAlt g (.nonterminal n) e → IsForest g e.terms kids →
      Spec.yield kids = [] → 1 + nodesCount kids ≤ full B (unitReach g n).card
  | s, n, kids, hs, e, he, hf, hy => by
    have hself : 1 ≤ (unitReach g n).card := Finset.card_pos.mpr ⟨_, self_unitReach he⟩
    obtain ⟨k, hk⟩ : ∃ k, (unitReach g n).card = k + 1 := ⟨_, (Nat.sub_add_cancel hself).symm⟩
    have hle : nodesCount kids ≤ kids.length * full B k := nodesCount_le fun x hx => by
      cases x with
      | terminal u => simpa [nodeCount] using full_pos B k
      | nonterminal l ks =>
        obtain ⟨m, pre, post, nb, na, rfl, hts, hns, hb, hp, e', he', hk'⟩ := forest_part hf hx
        have hlt : sizeOf ks < s := by
          have h1 := kids_size hx
          have h2 : sizeOf ks < sizeOf (ParseTreeNode.nonterminal (.nonterminal m) ks) := by simp
          omega
        obtain ⟨h1, h2, h3⟩ := empty_parts (hns ▸ hy)
        have hstep : UnitStep g n m := ⟨e, pre, post, he, hts, ⟨nb, hb, h1⟩, ⟨na, hp, h3⟩⟩
        have h4 := unitReach_step ha he hstep
        have ih := empty_size ha hB hz (s - 1) m ks (by omega) e' he' hk' (by simpa [nodeYield] using h2)
        exact Nat.le_trans ih (full_mono hB (by omega))
    obtain ⟨p, hp, _, hep⟩ := he
    have h1 : kids.length ≤ B := by rw [← forest_length hf]; exact hz p hp e hep
    have h2 := Nat.mul_le_mul_right (full B k) h1
    rw [hk]
    simp only [full]
    omega
  termination_by s => s
  decreasing_by omega

/-! ## All trees -/

/-- What a child counts for: nothing if it is a terminal or spells nothing. -/
def weight : ParseTreeNode → Nat
  | .terminal _ => 0
  | .nonterminal _ kids => 2 * (Spec.yield kids).length - 1

/-- The same for all children. -/
def weights (ns : List ParseTreeNode) : Nat := (ns.map weight).sum

theorem weight_le (x : ParseTreeNode) : weight x ≤ 2 * (nodeYield x).length - 1 := by
  cases x <;> simp [weight, nodeYield]

theorem weights_le : ∀ ns : List ParseTreeNode, weights ns ≤ 2 * (Spec.yield ns).length - 1
  | [] => by simp [weights]
  | x :: ns => by
    have h1 := weights_le ns
    have h2 := weight_le x
    simp only [weights, List.map_cons, List.sum_cons, Spec.yield, List.length_append] at h1 ⊢
    omega

theorem weights_split : ∀ ns : List ParseTreeNode, weights ns ≤ 2 * (Spec.yield ns).length - 2 ∨
    ∃ nb l ks na, ns = nb ++ .nonterminal l ks :: na ∧ Spec.yield nb = [] ∧ Spec.yield na = []
  | [] => .inl (by simp [weights])
  | x :: ns => by
    have h2 := weight_le x
    have h3 := weights_le ns
    have hs : weights (x :: ns) = weight x + weights ns := by simp [weights]
    have hy : (Spec.yield (x :: ns)).length = (nodeYield x).length + (Spec.yield ns).length := by simp [Spec.yield]
    by_cases hx : (nodeYield x).length = 0
    · rcases weights_split ns with h | ⟨nb, l, ks, na, rfl, h4, h5⟩
      · left; omega
      · exact .inr ⟨x :: nb, l, ks, na, rfl, by rw [Spec.yield, h4, List.length_eq_zero_iff.mp hx, List.nil_append], h5⟩
    · by_cases hn : (Spec.yield ns).length = 0
      · cases x with
        | terminal u => left; simp only [weight] at hs; omega
        | nonterminal l ks => exact .inr ⟨[], l, ks, ns, rfl, rfl, List.length_eq_zero_iff.mp hn⟩
      · left; omega

theorem nodesCount_weights {D E : Nat} : ∀ {ns : List ParseTreeNode}, (∀ x ∈ ns, nodeCount x ≤ D + E * weight x) →
    nodesCount ns ≤ ns.length * D + E * weights ns
  | [], _ => by simp [nodesCount, weights]
  | x :: ns, h => by
    have h1 := h x List.mem_cons_self
    have h2 := nodesCount_weights fun y hy => h y (List.mem_cons_of_mem _ hy)
    have hs : weights (x :: ns) = weight x + weights ns := by simp [weights]
    rw [hs, Nat.mul_add]
    simp only [nodesCount, List.length_cons, Nat.add_mul, Nat.one_mul]
    omega

theorem forest_split : ∀ {nb ns' : List ParseTreeNode} {ts : List Term}, IsForest g ts (nb ++ ns') →
    ∃ pre rest, ts = pre ++ rest ∧ IsForest g pre nb ∧ IsForest g rest ns'
  | [], _, ts, h => ⟨[], ts, rfl, .nil, h⟩
  | _ :: _, _, _, .terminal h => by
    obtain ⟨pre, rest, rfl, h1, h2⟩ := forest_split h
    exact ⟨_ :: pre, rest, rfl, .terminal h1, h2⟩
  | _ :: _, _, _, .nonterminal he hk h => by
    obtain ⟨pre, rest, rfl, h1, h2⟩ := forest_split h
    exact ⟨_ :: pre, rest, rfl, .nonterminal he hk h1, h2⟩

section
variable (g) (B : Nat)

/-- The names. -/
def nameCount : Nat := (declaredNames g).card

/-- The nodes of a tree that spells nothing. -/
def emptyMax : Nat := full B (nameCount g)

/-- A node with children that spell nothing. -/
def ownMax : Nat := 1 + B * emptyMax g B

end

theorem node_size (ha : Acyclic g) {B : Nat} (hB : 1 ≤ B) (hz : ∀ p ∈ g.productions, ∀ e ∈ p.rhs, e.terms.length ≤ B) :
    ∀ (s : Nat) (n : Str) (kids : List ParseTreeNode), sizeOf kids ≤ s → ∀ e, HasAlt g (.nonterminal n) e → IsForest g e.terms kids →
      Spec.yield kids ≠ [] →
      1 + nodesCount kids ≤ ownMax g B * (unitReach g n).card + ownMax g B * nameCount g * (2 * (Spec.yield kids).length - 2)
  | s, n, kids, hs, e, he, hf, hy => by
    have hself : 1 ≤ (unitReach g n).card := Finset.card_pos.mpr ⟨_, self_unitReach he⟩
    have hkl : kids.length ≤ B := by
      obtain ⟨p, hp, _, hep⟩ := he
      rw [← forest_length hf]; exact hz p hp e hep
    have hempty : ∀ (m : Str) (ks : List ParseTreeNode) (e' : Expression), HasAlt g (.nonterminal m) e' → IsForest g e'.terms ks →
        Spec.yield ks = [] → 1 + nodesCount ks ≤ emptyMax g B := fun m ks e' h1 h2 h3 =>
      Nat.le_trans (empty_size ha hB hz _ m ks (Nat.le_refl _) e' h1 h2 h3) (full_mono hB (unitReach_card m))
    have hsmall : ∀ {l : Term} {ks : List ParseTreeNode}, ParseTreeNode.nonterminal l ks ∈ kids → sizeOf ks < s := fun {l ks} hx => by
      have h1 := kids_size hx
      have h2 : sizeOf ks < sizeOf (ParseTreeNode.nonterminal l ks) := by simp
      omega
    rcases weights_split kids with hw | ⟨nb, l, ks, na, hns, hnb, hna⟩
    · have hle := nodesCount_weights (D := emptyMax g B) (E := ownMax g B * nameCount g) (ns := kids) fun x hx => by
        cases x with
        | terminal u =>
          have := full_pos B (nameCount g)
          simp only [nodeCount, weight, emptyMax]
          omega
        | nonterminal l ks =>
          obtain ⟨m, pre, post, nb, na, rfl, hts, hns, hb, hp, e', he', hk'⟩ := forest_part hf hx
          have hlt := hsmall hx
          by_cases hks : Spec.yield ks = []
          · have := hempty m ks e' he' hk' hks
            simp only [nodeCount]; omega
          · have ih := node_size ha hB hz (s - 1) m ks (by omega) e' he' hk' hks
            have h1 : 1 ≤ (Spec.yield ks).length := List.length_pos_iff.mpr hks
            have h2 := Nat.mul_le_mul_left (ownMax g B) (unitReach_card (g := g) m)
            have h3 : weight (.nonterminal (.nonterminal m) ks) = 1 + (2 * (Spec.yield ks).length - 2) := by simp only [weight]; omega
            rw [h3, Nat.mul_add, Nat.mul_one]
            simp only [nodeCount]
            have h4 : ownMax g B * (declaredNames g).card = ownMax g B * nameCount g := rfl
            omega
      have h1 := Nat.mul_le_mul_left (ownMax g B * nameCount g) hw
      have h2 := Nat.mul_le_mul_right (emptyMax g B) hkl
      have h3 : 1 + B * emptyMax g B ≤ ownMax g B * (unitReach g n).card := Nat.le_mul_of_pos_right _ hself
      omega
    · have hx : ParseTreeNode.nonterminal l ks ∈ kids := by rw [hns]; simp
      have hks : Spec.yield kids = Spec.yield ks := by rw [hns, yield_parts, hnb, hna]; simp [nodeYield]
      have hside : ∀ x, x ∈ nb ∨ x ∈ na → nodeCount x ≤ emptyMax g B := by
        intro x hxs
        have hxk : x ∈ kids := by rw [hns]; rcases hxs with h | h <;> simp [h]
        cases x with
        | terminal u => exact full_pos B (nameCount g)
        | nonterminal l' ks' =>
          obtain ⟨m', _, _, _, _, rfl, _, _, _, _, e', he', hk'⟩ := forest_part hf hxk
          refine hempty m' ks' e' he' hk' ?_
          rcases hxs with h | h <;> obtain ⟨a, b, hab⟩ := List.append_of_mem h
          · rw [hab] at hnb; have h1 := (empty_parts hnb).2.1; rwa [nodeYield] at h1
          · rw [hab] at hna; have h1 := (empty_parts hna).2.1; rwa [nodeYield] at h1
      obtain ⟨pre, rest, hts, hb, hrest⟩ := forest_split (hns ▸ hf)
      cases hrest with
      | @nonterminal m e' _ post _ he' hk' hp =>
        have hstep : UnitStep g n m := ⟨e, pre, post, he, hts, ⟨nb, hb, hnb⟩, ⟨na, hp, hna⟩⟩
        have h4 := unitReach_step ha he hstep
        have hlt := hsmall hx
        have ih := node_size ha hB hz (s - 1) m ks (by omega) e' he' hk' (hks ▸ hy)
        have h5 := nodesCount_le fun x hx => hside x (.inl hx)
        have h6 := nodesCount_le fun x hx => hside x (.inr hx)
        have h7 : nb.length + na.length ≤ B := by rw [hns] at hkl; simp at hkl; omega
        have h8 := Nat.mul_le_mul_right (emptyMax g B) h7
        have h9 : nodesCount kids = nodesCount nb + (1 + nodesCount ks + nodesCount na) := by
          rw [hns, nodesCount_append]; simp [nodesCount, nodeCount]
        have h10 : ownMax g B + ownMax g B * (unitReach g m).card ≤ ownMax g B * (unitReach g n).card := by
          have := Nat.mul_le_mul_left (ownMax g B) h4
          rw [Nat.mul_succ] at this
          omega
        have h11 : ownMax g B = 1 + B * emptyMax g B := rfl
        rw [Nat.add_mul] at h8
        rw [hks]
        omega
  termination_by s => s
  decreasing_by all_goals omega

/-- Forests are at most linearly larger than what they spell. -/
theorem forest_size (ha : Acyclic g) {B : Nat} (hB : 1 ≤ B) (hz : ∀ p ∈ g.productions, ∀ e ∈ p.rhs, e.terms.length ≤ B) {ts ns}
    (hf : IsForest g ts ns) : nodesCount ns ≤ ts.length * emptyMax g B + ownMax g B * nameCount g * (2 * (Spec.yield ns).length) := by
  have hle := nodesCount_weights (D := emptyMax g B) (E := ownMax g B * nameCount g) (ns := ns) fun x hx => by
    cases x with
    | terminal u =>
      have := full_pos B (nameCount g)
      simp only [nodeCount, weight, emptyMax]
      omega
    | nonterminal l ks =>
      obtain ⟨m, _, _, _, _, rfl, _, _, _, _, e', he', hk'⟩ := forest_part hf hx
      by_cases hks : Spec.yield ks = []
      · have := Nat.le_trans (empty_size ha hB hz _ m ks (Nat.le_refl _) e' he' hk' hks) (full_mono hB (unitReach_card m))
        simp only [nodeCount, emptyMax, nameCount]; omega
      · have ih := node_size ha hB hz _ m ks (Nat.le_refl _) e' he' hk' hks
        have h1 : 1 ≤ (Spec.yield ks).length := List.length_pos_iff.mpr hks
        have h2 := Nat.mul_le_mul_left (ownMax g B) (unitReach_card (g := g) m)
        have h3 : weight (.nonterminal (.nonterminal m) ks) = 1 + (2 * (Spec.yield ks).length - 2) := by simp only [weight]; omega
        rw [h3, Nat.mul_add, Nat.mul_one]
        simp only [nodeCount]
        have h4 : ownMax g B * (declaredNames g).card = ownMax g B * nameCount g := rfl
        omega
  have h1 : weights ns ≤ 2 * (Spec.yield ns).length := Nat.le_trans (weights_le ns) (Nat.sub_le _ _)
  have h2 := Nat.mul_le_mul_left (ownMax g B * nameCount g) h1
  rw [forest_length hf]
  omega

/-! ## Codes -/

mutual
/-- The alternatives of the inner nodes, in preorder. -/
def code : ParseTreeNode → List (List Term)
  | .terminal _ => []
  | .nonterminal _ kids => kids.map rootTerm :: codes kids
def codes : List ParseTreeNode → List (List Term)
  | [] => []
  | k :: ks => code k ++ codes ks
end

/-- The code and the terms tell the forest. -/
theorem codes_inj {ts ns} (h : IsForest g ts ns) : ∀ ns' r r', IsForest g ts ns' → codes ns ++ r = codes ns' ++ r' → ns = ns' ∧ r = r' := by
  induction h with
  | nil => intro ns' r r' h e; cases h; exact ⟨rfl, by simpa [codes] using e⟩
  | @terminal s ts ns _ ih =>
    intro ns' r r' h e
    cases h with
    | @terminal _ _ ns' h =>
      simp only [codes, code, List.nil_append] at e
      obtain ⟨rfl, rfl⟩ := ih ns' r r' h e
      exact ⟨rfl, rfl⟩
  | @nonterminal n x ks ts ns ha hk _ ih1 ih2 =>
    intro ns' r r' h e
    cases h with
    | @nonterminal _ x' ks' _ ns' ha' hk' h =>
      simp only [codes, code, List.cons_append, List.cons.injEq, List.append_assoc] at e
      obtain ⟨e1, e2⟩ := e
      rw [← hk.roots, ← hk'.roots] at e1
      obtain ⟨rfl, e3⟩ := ih1 ks' _ _ (e1 ▸ hk') e2
      obtain ⟨rfl, rfl⟩ := ih2 ns' _ _ h e3
      exact ⟨rfl, rfl⟩

/-- All right-hand sides. -/
def bodies (g : Grammar) : List (List Term) := (alternatives g).map fun a => a.2.terms

theorem hasAlt_alternatives {l : Term} {e : Expression} (h : HasAlt g l e) : (l, e) ∈ alternatives g := by
  obtain ⟨p, hp, hl, he⟩ := h
  simp only [alternatives, List.mem_flatMap, List.mem_map]
  exact ⟨p, hp, e, he, by rw [hl]⟩

theorem codes_mem {ts ns} (h : IsForest g ts ns) : ∀ b ∈ codes ns, b ∈ bodies g := by
  induction h with
  | nil => intro b hb; cases hb
  | terminal _ ih => simpa [codes, code] using ih
  | @nonterminal n x ks ts ns ha hk _ ih1 ih2 =>
    intro b hb
    simp only [codes, code, List.cons_append, List.mem_cons, List.mem_append] at hb
    rcases hb with rfl | hb | hb
    · rw [← hk.roots]
      exact List.mem_map.mpr ⟨_, hasAlt_alternatives ha, rfl⟩
    · exact ih1 b hb
    · exact ih2 b hb

mutual
theorem code_length : ∀ x : ParseTreeNode, (code x).length ≤ nodeCount x
  | .terminal _ => by simp [code]
  | .nonterminal _ kids => by have := codes_length kids; simp only [code, nodeCount, List.length_cons]; omega
theorem codes_length : ∀ ns : List ParseTreeNode, (codes ns).length ≤ nodesCount ns
  | [] => by simp [codes]
  | x :: ns => by have h1 := code_length x; have h2 := codes_length ns; simp only [codes, nodesCount, List.length_append]; omega
end

/-- The lists over `F` that are not longer than `n`. -/
def upTo {α : Type} [DecidableEq α] (F : Finset α) : Nat → Finset (List α)
  | 0 => {[]}
  | n + 1 => insert [] ((F ×ˢ upTo F n).image fun p => p.1 :: p.2)

theorem mem_upTo {α : Type} [DecidableEq α] {F : Finset α} : ∀ {n : Nat} {l : List α}, l.length ≤ n → (∀ x ∈ l, x ∈ F) → l ∈ upTo F n
  | 0, l, h, _ => by rw [List.length_eq_zero_iff.mp (Nat.le_zero.mp h)]; simp [upTo]
  | n + 1, [], _, _ => by simp [upTo]
  | n + 1, x :: l, h, hm => by
    have := mem_upTo (n := n) (l := l) (by simpa using h) fun y hy => hm y (List.mem_cons_of_mem _ hy)
    simp only [upTo, Finset.mem_insert, Finset.mem_image, Finset.mem_product]
    exact .inr ⟨(x, l), ⟨hm x List.mem_cons_self, this⟩, rfl⟩

theorem card_upTo {α : Type} [DecidableEq α] (F : Finset α) : ∀ n, (upTo F n).card ≤ (F.card + 1) ^ n
  | 0 => by simp [upTo]
  | n + 1 => by
    have h1 := card_upTo F n
    have h2 := Finset.card_insert_le ([] : List α) ((F ×ˢ upTo F n).image fun p => p.1 :: p.2)
    have h3 : ((F ×ˢ upTo F n).image fun p => p.1 :: p.2).card ≤ F.card * (upTo F n).card := by
      rw [← Finset.card_product]; exact Finset.card_image_le
    have h4 := Nat.mul_le_mul_left F.card h1
    have h5 : 1 ≤ (F.card + 1) ^ n := Nat.one_le_pow _ _ (Nat.succ_pos _)
    have h6 : (F.card + 1) ^ (n + 1) = F.card * (F.card + 1) ^ n + (F.card + 1) ^ n := by rw [Nat.pow_succ, Nat.mul_comm, Nat.add_mul, Nat.one_mul]
    rw [h6]
    unfold upTo
    omega

/-! ## Counting -/

/-- The length of the codes of the forests over texts of length at most `L`. -/
def codeMax (g : Grammar) (B L : Nat) : Nat := B * emptyMax g B + ownMax g B * nameCount g * (2 * L)

theorem viable_codes {S : Term} {input : Str} (ha : Acyclic g) {B : Nat} (hB : 1 ≤ B) (hz : ∀ p ∈ g.productions, ∀ e ∈ p.rhs, e.terms.length ≤ B)
    {x : Begun} (hx : Viable g S input x) : x.forest.length ≤ B ∧ nodesCount x.forest ≤ codeMax g B input.length := by
  obtain ⟨⟨p, hp, _, hep⟩, _, pre, post, r, hts, hf, hr⟩ := hx
  have h1 : pre.length ≤ B := by
    have := hz p hp _ hep
    rw [hts, List.length_append] at this
    omega
  have h2 := forest_size ha hB hz hf
  have h3 := Nat.mul_le_mul_right (emptyMax g B) h1
  have h4 : (Spec.yield x.forest).length ≤ input.length := by rw [hr]; simp; omega
  have h5 : ownMax g B * nameCount g * (2 * (Spec.yield x.forest).length) ≤ ownMax g B * nameCount g * (2 * input.length) :=
    Nat.mul_le_mul_left _ (by omega)
  refine ⟨by rw [← forest_length hf]; exact h1, ?_⟩
  unfold codeMax
  omega

theorem viable_exponential {S : Term} {input : Str} (ha : Acyclic g) {B : Nat} (hB : 1 ≤ B)
    (hz : ∀ p ∈ g.productions, ∀ e ∈ p.rhs, e.terms.length ≤ B) :
    {x | Viable g S input x}.Finite ∧ {x | Viable g S input x}.ncard ≤
      (alternatives g).length * ((B + 1) * ((input.length + 1) * ((alternatives g).length + 1) ^ codeMax g B input.length)) := by
  classical
  let A := (alternatives g).toFinset
  let F := (bodies g).toFinset
  let U := upTo F (codeMax g B input.length)
  let X : Finset ((Term × Expression) × Nat × Nat × List (List Term)) := A ×ˢ Finset.range (B + 1) ×ˢ Finset.range (input.length + 1) ×ˢ U
  let f : Begun → (Term × Expression) × Nat × Nat × List (List Term) := fun x => ((x.lhs, x.alt), x.forest.length, x.seen.length, codes x.forest)
  have hmaps : ∀ x ∈ {x | Viable g S input x}, f x ∈ (X : Set _) := by
    intro x hx
    obtain ⟨h1, h2⟩ := viable_codes ha hB hz hx
    obtain ⟨h3, _, pre, post, r, hts, hf, hr⟩ := hx
    simp only [Finset.coe_product, Set.mem_prod, Finset.mem_coe, Finset.mem_range, X, f, A, F, U, List.mem_toFinset]
    refine ⟨hasAlt_alternatives h3, by omega, ?_, mem_upTo (Nat.le_trans (codes_length _) h2) fun b hb => List.mem_toFinset.mpr (codes_mem hf b hb)⟩
    rw [hr]; simp
  have hinj : Set.InjOn f {x | Viable g S input x} := by
    rintro ⟨u, l, e, ns⟩ ⟨_, _, pre, post, r, hts, hf, hr⟩ ⟨u', l', e', ns'⟩ ⟨_, _, pre', post', r', hts', hf', hr'⟩ heq
    simp only [f, Prod.mk.injEq] at heq hts hts' hf hf' hr hr'
    obtain ⟨⟨rfl, rfl⟩, h1, h3, h4⟩ := heq
    have hpre : pre = pre' := by
      rw [hts] at hts'
      exact (List.append_inj hts' (by rw [forest_length hf, forest_length hf', h1])).1
    subst hpre
    obtain ⟨rfl, _⟩ := codes_inj hf ns' [] [] hf' (by rw [h4])
    obtain ⟨rfl, _⟩ := List.append_inj (s₁ := u) (s₂ := u') (t₁ := Spec.yield ns ++ r) (t₂ := Spec.yield ns ++ r')
      (by rw [← List.append_assoc, ← hr, hr', List.append_assoc]) h3
    rfl
  have hfin : {x | Viable g S input x}.Finite := Set.Finite.of_finite_image ((Finset.finite_toSet X).subset
    (by rintro _ ⟨x, hx, rfl⟩; exact hmaps x hx)) hinj
  refine ⟨hfin, ?_⟩
  have hX : X.card = A.card * ((B + 1) * ((input.length + 1) * U.card)) := by
    simp only [X, Finset.card_product, Finset.card_range]
  have hA : A.card ≤ (alternatives g).length := List.toFinset_card_le _
  have hF : F.card ≤ (alternatives g).length := by
    refine Nat.le_trans (List.toFinset_card_le (bodies g)) (Nat.le_of_eq ?_)
    simp [bodies]
  have hU : U.card ≤ ((alternatives g).length + 1) ^ codeMax g B input.length :=
    Nat.le_trans (card_upTo F _) (Nat.pow_le_pow_left (by omega) _)
  have h1 := Set.ncard_le_ncard_of_injOn f hmaps hinj (Finset.finite_toSet _)
  rw [Set.ncard_coe_finset, hX] at h1
  exact Nat.le_trans h1 (Nat.mul_le_mul hA (Nat.mul_le_mul_left _ (Nat.mul_le_mul_left _ hU)))

theorem timesListed_le (l : Term) (e : Expression) : timesListed g l e ≤ (alternatives g).length + 1 := by
  rw [timesListed_count]
  exact Nat.le_trans List.count_le_length (Nat.le_succ _)

mutual
theorem nodeCopies_le : ∀ x : ParseTreeNode, nodeCopies g x ≤ ((alternatives g).length + 1) ^ nodeCount x
  | .terminal _ => by simp [nodeCopies, nodeCount]
  | .nonterminal l kids => by
    rw [nodeCopies, nodeCount, Nat.pow_add, Nat.pow_one]
    exact Nat.mul_le_mul (timesListed_le _ _) (forestCopies_le kids)
theorem forestCopies_le : ∀ ns : List ParseTreeNode, forestCopies g ns ≤ ((alternatives g).length + 1) ^ nodesCount ns
  | [] => by simp [forestCopies, nodesCount]
  | x :: ns => by
    rw [forestCopies, nodesCount, Nat.pow_add]
    exact Nat.mul_le_mul (nodeCopies_le x) (forestCopies_le ns)
end

/-- The longest alternative. -/
theorem exists_longest (g : Grammar) : ∃ B, 1 ≤ B ∧ ∀ p ∈ g.productions, ∀ e ∈ p.rhs, e.terms.length ≤ B := by
  refine ⟨((alternatives g).map fun a => a.2.terms.length).sum + 1, by omega, fun p hp e he => ?_⟩
  have := List.single_le_sum (l := (alternatives g).map fun a => a.2.terms.length) (by simp) e.terms.length
    (List.mem_map.mpr ⟨_, hasAlt_alternatives ⟨p, hp, rfl, he⟩, rfl⟩)
  omega

theorem le_two_pow (n : Nat) : n + 1 ≤ 2 ^ n := Nat.lt_two_pow_self

/-- Every such bound is below an exponential one. -/
theorem bound_pow (c p q a L : Nat) : c * (L + 1) * (a + 1) ^ (p + q * L) + 1 ≤ ((c + 1) * 2 * (a + 1) ^ (p + q)) ^ (L + 1) := by
  have h1 : (c + 1) ≤ (c + 1) ^ (L + 1) := Nat.le_self_pow (by omega) _
  have h2 : L + 1 ≤ 2 ^ (L + 1) := Nat.le_trans (le_two_pow L) (Nat.pow_le_pow_right (by omega) (by omega))
  have h3 : (a + 1) ^ (p + q * L) ≤ ((a + 1) ^ (p + q)) ^ (L + 1) := by
    rw [← Nat.pow_mul]
    refine Nat.pow_le_pow_right (Nat.succ_pos _) ?_
    nlinarith [Nat.zero_le (p * L), Nat.zero_le q]
  rw [Nat.mul_pow, Nat.mul_pow]
  refine Nat.le_trans ?_ (Nat.mul_le_mul (Nat.mul_le_mul h1 h2) h3)
  have h4 : 1 ≤ (L + 1) * (a + 1) ^ (p + q * L) := Nat.mul_pos (Nat.succ_pos _) (Nat.pow_pos (Nat.succ_pos _))
  have h5 : (c + 1) * (L + 1) * (a + 1) ^ (p + q * L) = c * (L + 1) * (a + 1) ^ (p + q * L) + (L + 1) * (a + 1) ^ (p + q * L) := by ring
  omega

theorem copies_sum {S : Term} {input : Str} (ha : Acyclic g) {B : Nat} (hB : 1 ≤ B)
    (hz : ∀ p ∈ g.productions, ∀ e ∈ p.rhs, e.terms.length ≤ B) :
    ∑ᶠ x ∈ {x | Viable g S input x}, timesListed g x.lhs x.alt * forestCopies g x.forest ≤
      {x | Viable g S input x}.ncard * ((alternatives g).length + 1) ^ (1 + codeMax g B input.length) := by
  obtain ⟨hfin, _⟩ := viable_exponential (S := S) (input := input) ha hB hz
  rw [finsum_mem_eq_finite_toFinset_sum _ hfin, Set.ncard_eq_toFinset_card _ hfin]
  refine Finset.sum_le_card_nsmul _ _ _ fun x hx => ?_
  have h1 := (viable_codes ha hB hz (hfin.mem_toFinset.mp hx)).2
  rw [Nat.pow_add, Nat.pow_one]
  exact Nat.mul_le_mul (timesListed_le _ _) (Nat.le_trans (forestCopies_le _) (Nat.pow_le_pow_right (Nat.succ_pos _) h1))

theorem rounds_exponential (ha : Acyclic g) : ∃ K, ∀ (S : Term) (input : Str), {x | Viable g S input x}.Finite ∧
    ∑ᶠ x ∈ {x | Viable g S input x}, timesListed g x.lhs x.alt * forestCopies g x.forest + 1 ≤ K ^ (input.length + 1) := by
  obtain ⟨B, hB, hz⟩ := exists_longest g
  refine ⟨((alternatives g).length * (B + 1) + 1) * 2 * ((alternatives g).length + 1) ^ (1 + 2 * (B * emptyMax g B) + 4 * (ownMax g B * nameCount g)),
    fun S input => ⟨(viable_exponential ha hB hz).1, ?_⟩⟩
  · have h1 := copies_sum (S := S) (input := input) ha hB hz
    have h2 := Nat.mul_le_mul_right (((alternatives g).length + 1) ^ (1 + codeMax g B input.length))
      (viable_exponential (S := S) (input := input) ha hB hz).2
    have h3 := bound_pow ((alternatives g).length * (B + 1)) (1 + 2 * (B * emptyMax g B)) (4 * (ownMax g B * nameCount g)) (alternatives g).length input.length
    refine Nat.le_trans (Nat.succ_le_succ (Nat.le_trans h1 h2)) (Nat.le_trans (Nat.le_of_eq ?_) h3)
    have h4 : 1 + 2 * (B * emptyMax g B) + 4 * (ownMax g B * nameCount g) * input.length = codeMax g B input.length + (1 + codeMax g B input.length) := by
      unfold codeMax; ring
    rw [h4, Nat.pow_add _ (codeMax g B input.length)]
    simp only [Nat.succ_eq_add_one]
    ring

theorem trees_exponential (ha : Acyclic g) : ∃ K, ∀ (S : Term) (input : Str), {t | IsParse g S input t}.Finite ∧
    {t | IsParse g S input t}.ncard ≤ K ^ (input.length + 1) := by
  classical
  obtain ⟨B, hB, hz⟩ := exists_longest g
  refine ⟨((alternatives g).length + 1) ^ (1 + B * emptyMax g B + 2 * (ownMax g B * nameCount g)), fun S input => ?_⟩
  let F := (bodies g).toFinset
  let U := upTo F (1 + codeMax g B input.length)
  let f : ParseTree → List (List Term) := fun t => t.rhs.map rootTerm :: codes t.rhs
  have hmaps : ∀ t ∈ {t | IsParse g S input t}, f t ∈ (U : Set _) := by
    rintro t ⟨_, ⟨e, he, hf⟩, hy⟩
    have h1 := forest_size ha hB hz hf
    have h2 : e.terms.length ≤ B := by obtain ⟨p, hp, _, hep⟩ := he; exact hz p hp e hep
    have h3 := Nat.mul_le_mul_right (emptyMax g B) h2
    have h4 := codes_length t.rhs
    rw [hy] at h1
    refine mem_upTo (by simp only [f, List.length_cons, codeMax]; omega) fun b hb => List.mem_toFinset.mpr ?_
    rcases List.mem_cons.mp hb with rfl | hb
    · rw [← hf.roots]
      exact List.mem_map.mpr ⟨_, hasAlt_alternatives he, rfl⟩
    · exact codes_mem hf b hb
  have hinj : Set.InjOn f {t | IsParse g S input t} := by
    rintro ⟨l, ns⟩ ⟨hl, ⟨e, _, hf⟩, _⟩ ⟨l', ns'⟩ ⟨hl', ⟨e', _, hf'⟩, _⟩ heq
    simp only [f, List.cons.injEq] at heq hl hl' hf hf'
    obtain ⟨h1, h2⟩ := heq
    rw [← hf.roots, ← hf'.roots] at h1
    obtain ⟨rfl, _⟩ := codes_inj hf ns' [] [] (h1 ▸ hf') (by rw [h2])
    rw [hl, hl']
  have hfin : {t | IsParse g S input t}.Finite := Set.Finite.of_finite_image ((Finset.finite_toSet U).subset
    (by rintro _ ⟨x, hx, rfl⟩; exact hmaps x hx)) hinj
  refine ⟨hfin, ?_⟩
  have hF : F.card ≤ (alternatives g).length := by
    refine Nat.le_trans (List.toFinset_card_le (bodies g)) (Nat.le_of_eq ?_)
    simp [bodies]
  have h1 := Set.ncard_le_ncard_of_injOn f hmaps hinj (Finset.finite_toSet _)
  rw [Set.ncard_coe_finset] at h1
  refine Nat.le_trans h1 (Nat.le_trans (card_upTo F _) (Nat.le_trans (Nat.pow_le_pow_left (Nat.succ_le_succ hF) _) ?_))
  rw [← Nat.pow_mul]
  refine Nat.pow_le_pow_right (Nat.succ_pos _) ?_
  unfold codeMax
  nlinarith [Nat.zero_le ((1 + B * emptyMax g B) * input.length), Nat.zero_le (ownMax g B * nameCount g)]

end Bnf.Exponential
