import Verif.Proofs.Work
import Mathlib.Combinatorics.Enumerative.Catalan.Tree

/-! Counting the derivations of a highly ambiguous grammar. -/

set_option autoImplicit false

namespace Bnf
open Spec

/-- `<s> ::= <s> <s> | 'a'`. -/
def gDouble : Grammar := ⟨[⟨.nonterminal ['s'],
  [⟨[.nonterminal ['s'], .nonterminal ['s']]⟩, ⟨[.terminal ['a']]⟩]⟩]⟩

/-- Children of the derivation tree of a binary tree. -/
def kidsOf : BinaryTree Unit → List ParseTreeNode
  | .nil => [.terminal ['a']]
  | .node _ l r => [.nonterminal (.nonterminal ['s']) (kidsOf l), .nonterminal (.nonterminal ['s']) (kidsOf r)]

theorem gDouble_alt1 : HasAlt gDouble (.nonterminal ['s']) ⟨[.nonterminal ['s'], .nonterminal ['s']]⟩ :=
  ⟨_, List.mem_cons_self, rfl, by simp⟩

theorem gDouble_alt2 : HasAlt gDouble (.nonterminal ['s']) ⟨[.terminal ['a']]⟩ :=
  ⟨_, List.mem_cons_self, rfl, by simp⟩

theorem gDouble_alts {l e} (h : HasAlt gDouble l e) : l = .nonterminal ['s'] ∧
    (e = ⟨[.nonterminal ['s'], .nonterminal ['s']]⟩ ∨ e = ⟨[.terminal ['a']]⟩) := by
  obtain ⟨p, hp, rfl, he⟩ := h
  simp only [gDouble, List.mem_singleton] at hp
  subst hp
  simpa using he

theorem kidsOf_forest (t : BinaryTree Unit) :
    ∃ e, HasAlt gDouble (.nonterminal ['s']) e ∧ IsForest gDouble e.terms (kidsOf t) := by
  induction t with
  | nil => exact ⟨_, gDouble_alt2, .terminal .nil⟩
  | node _ l r ihl ihr =>
    obtain ⟨e1, h1, h2⟩ := ihl
    obtain ⟨e2, h3, h4⟩ := ihr
    exact ⟨_, gDouble_alt1, .nonterminal h1 h2 (.nonterminal h3 h4 .nil)⟩

theorem kidsOf_yield (t : BinaryTree Unit) : Spec.yield (kidsOf t) = List.replicate (t.numNodes + 1) 'a' := by
  induction t with
  | nil => rfl
  | node _ l r ihl ihr =>
    simp only [kidsOf, Spec.yield, Spec.nodeYield, ihl, ihr, List.append_nil, BinaryTree.numNodes]
    rw [List.replicate_append_replicate]
    congr 1
    omega

theorem kidsOf_inj : Function.Injective kidsOf := by
  intro t
  induction t with
  | nil =>
    intro t' h
    cases t' with
    | nil => rfl
    | node _ _ _ => simp [kidsOf] at h
  | node _ l r ihl ihr =>
    intro t' h
    cases t' with
    | nil => simp [kidsOf] at h
    | node _ l' r' =>
      simp only [kidsOf, List.cons.injEq, ParseTreeNode.nonterminal.injEq, true_and, and_true] at h
      rw [ihl h.1, ihr h.2]

theorem kidsOf_nodes {ts ns} (h : IsForest gDouble ts ns) :
    ∀ l kids, ParseTreeNode.nonterminal l kids ∈ ns → ∃ t, kids = kidsOf t := by
  induction h with
  | nil => intro l kids h; simp at h
  | terminal _ ih =>
    intro l kids h
    simp only [List.mem_cons, reduceCtorEq, false_or] at h
    exact ih l kids h
  | @nonterminal n e kids0 ts ns ha hk _ ih1 ih2 =>
    intro l kids h
    rcases List.mem_cons.mp h with h | h
    · injection h with _ h
      subst h
      obtain ⟨_, rfl | rfl⟩ := gDouble_alts ha
      · simp only at hk
        cases hk with
        | nonterminal _ _ h2 =>
          cases h2 with
          | nonterminal _ _ h3 =>
            cases h3
            obtain ⟨t1, rfl⟩ := ih1 _ _ (List.mem_cons_self)
            obtain ⟨t2, rfl⟩ := ih1 _ _ (List.mem_cons_of_mem _ List.mem_cons_self)
            exact ⟨.node () t1 t2, rfl⟩
      · simp only at hk
        cases hk with
        | terminal h2 => cases h2; exact ⟨.nil, rfl⟩
    · exact ih2 l kids h

theorem kidsOf_surj {e ns} (ha : HasAlt gDouble (.nonterminal ['s']) e) (h : IsForest gDouble e.terms ns) :
    ∃ t, ns = kidsOf t :=
  kidsOf_nodes (.nonterminal ha h .nil) (.nonterminal ['s']) ns List.mem_cons_self

theorem gDouble_parses (n : Nat) : {t | IsParse gDouble (.nonterminal ['s']) (List.replicate (n + 1) 'a') t} =
    (fun b => ParseTree.mk (.nonterminal ['s']) (kidsOf b)) '' {b | b ∈ BinaryTree.treesOfNumNodesEq n} := by
  ext ⟨l, ns⟩
  constructor
  · rintro ⟨hl, ⟨e, ha, hf⟩, hy⟩
    simp only at hl ha hf hy
    subst hl
    obtain ⟨b, rfl⟩ := kidsOf_surj ha hf
    rw [kidsOf_yield] at hy
    have := congrArg List.length hy
    simp at this
    exact ⟨b, BinaryTree.mem_treesOfNumNodesEq.mpr this, rfl⟩
  · rintro ⟨b, hb, he⟩
    injection he with h1 h2
    subst h1 h2
    refine ⟨rfl, kidsOf_forest b, ?_⟩
    rw [kidsOf_yield, BinaryTree.mem_treesOfNumNodesEq.mp hb]

theorem gDouble_count (n : Nat) :
    {t | IsParse gDouble (.nonterminal ['s']) (List.replicate (n + 1) 'a') t}.ncard = catalan n := by
  rw [gDouble_parses, Set.ncard_image_of_injective]
  · rw [show {b | b ∈ BinaryTree.treesOfNumNodesEq n} = ((BinaryTree.treesOfNumNodesEq n : Finset _) : Set _) from rfl,
      Set.ncard_coe_finset, BinaryTree.treesOfNumNodesEq_card_eq_catalan]
  · intro a b h
    injection h with _ h
    exact kidsOf_inj h

/-- Every input beginning with many `a`s has many viable partial derivations. -/
theorem gDouble_viable (n : Nat) (rest : Str)
    (hfin : {x | Viable gDouble (.nonterminal ['s']) (List.replicate (n + 1) 'a' ++ rest) x}.Finite) :
    catalan n < {x | Viable gDouble (.nonterminal ['s']) (List.replicate (n + 1) 'a' ++ rest) x}.ncard := by
  choose e he1 he2 using kidsOf_forest
  let f : BinaryTree Unit → Begun := fun b => ⟨[], .nonterminal ['s'], e b, kidsOf b⟩
  have hinj : Function.Injective f := fun a b h => by
    injection h with _ _ _ h
    exact kidsOf_inj h
  have hv : ∀ b ∈ BinaryTree.treesOfNumNodesEq n,
      Viable gDouble (.nonterminal ['s']) (List.replicate (n + 1) 'a' ++ rest) (f b) := by
    intro b hb
    refine ⟨he1 b, .start, (e b).terms, [], rest, by simp [f], he2 b, ?_⟩
    simp [f, kidsOf_yield, BinaryTree.mem_treesOfNumNodesEq.mp hb]
  have hroot : Viable gDouble (.nonterminal ['s']) (List.replicate (n + 1) 'a' ++ rest)
      ⟨[], .nonterminal ['s'], ⟨[.terminal ['a']]⟩, []⟩ :=
    ⟨gDouble_alt2, .start, [], _, _, rfl, .nil, rfl⟩
  have hnot : (⟨[], .nonterminal ['s'], ⟨[.terminal ['a']]⟩, []⟩ : Begun) ∉ f '' (BinaryTree.treesOfNumNodesEq n : Set _) := by
    rintro ⟨b, _, hb⟩
    injection hb with _ _ _ hb
    cases b <;> simp [kidsOf] at hb
  have := Set.ncard_lt_ncard (s := f '' (BinaryTree.treesOfNumNodesEq n : Set _))
    (t := {x | Viable gDouble (.nonterminal ['s']) (List.replicate (n + 1) 'a' ++ rest) x})
    ⟨by rintro _ ⟨b, hb, rfl⟩; exact hv b hb, fun hsub => hnot (hsub hroot)⟩ hfin
  rwa [Set.ncard_image_of_injective _ hinj, Set.ncard_coe_finset, BinaryTree.treesOfNumNodesEq_card_eq_catalan] at this

theorem gDouble_len {ts ns} (h : IsForest gDouble ts ns) : (∀ T ∈ ts, T ≠ .terminal []) →
    ts.length ≤ (Spec.yield ns).length := by
  induction h with
  | nil => simp
  | @terminal s ts ns _ ih =>
    intro h
    have := ih fun T hT => h T (List.mem_cons_of_mem _ hT)
    have hs : s ≠ [] := fun hs => h (.terminal s) List.mem_cons_self (by rw [hs])
    have := List.length_pos_iff.mpr hs
    simp [Spec.yield, Spec.nodeYield]
    omega
  | @nonterminal n e kids ts ns ha hk _ ih1 ih2 =>
    intro h
    have h2 := ih2 fun T hT => h T (List.mem_cons_of_mem _ hT)
    obtain ⟨_, rfl | rfl⟩ := gDouble_alts ha
    · have := ih1 (by simp)
      simp at this
      simp [Spec.yield, Spec.nodeYield]
      omega
    · have := ih1 (by simp)
      simp at this
      simp [Spec.yield, Spec.nodeYield]
      omega

theorem gDouble_acyclic : Acyclic gDouble := by
  have hno : ∀ a b, ¬ UnitStep gDouble a b := by
    rintro a b ⟨e, pre, post, ha, hts, ⟨ns, h1, h2⟩, ⟨ms, h3, h4⟩⟩
    obtain ⟨_, rfl | rfl⟩ := gDouble_alts ha
    · have hm : ∀ T, T ∈ pre ++ .nonterminal b :: post → T ≠ .terminal [] := by
        rw [← hts]; simp
      have l1 := gDouble_len h1 fun T hT => hm T (by simp [hT])
      have l2 := gDouble_len h3 fun T hT => hm T (by simp [hT])
      rw [h2] at l1
      rw [h4] at l2
      have := congrArg List.length hts
      simp at this l1 l2
      simp [l1, l2] at this
    · have : Term.nonterminal b ∈ [Term.terminal ['a']] := by simp only at hts; rw [hts]; simp
      simp at this
  intro n h
  cases h with
  | single h => exact hno _ _ h
  | tail _ h => exact hno _ _ h

theorem catalan_double (n : Nat) : 2 * catalan (n + 1) ≤ catalan (n + 2) := by
  rw [catalan_succ (n + 1), Fin.sum_univ_succ, Fin.sum_univ_castSucc]
  simp
  omega

theorem catalan_growth (n : Nat) : 2 ^ n ≤ catalan (n + 1) := by
  induction n with
  | zero => simp
  | succ n ih =>
    have : 2 * catalan (n + 1) ≤ catalan (n + 1 + 1) := catalan_double n
    rw [pow_succ]
    omega

end Bnf
