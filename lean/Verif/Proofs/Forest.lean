import Verif.Proofs.EarleyRun
import Mathlib.Data.List.Nodup

/-! Annotated derivations and derivation trees. -/

set_option autoImplicit false

namespace Bnf

mutual
theorem nodeYield_erase (pg : ParseGrammar) : (d : DNode) → Spec.nodeYield (eraseNode pg d) = dnodeYield d
  | .leaf s => by simp [eraseNode, Spec.nodeYield, dnodeYield]
  | .node pid kids => by simp [eraseNode, Spec.nodeYield, dnodeYield, yield_erase pg kids]
theorem yield_erase (pg : ParseGrammar) : (ks : List DNode) → Spec.yield (erase pg ks) = dyield ks
  | [] => by simp [erase, Spec.yield, dyield]
  | d :: ds => by simp [erase, Spec.yield, dyield, nodeYield_erase pg d, yield_erase pg ds]
end

theorem prod_hasAlt {g : Grammar} {i : Nat} {p : FlatProd}
    (h : (ParseGrammar.newUnchecked g).productions[i]? = some p) : Spec.HasAlt g p.lhs p.rhs := by
  rw [← mem_flatProds, ← newUnchecked_productions]
  exact List.mem_map.mpr ⟨p, List.mem_iff_getElem?.mpr ⟨i, h⟩, rfl⟩

theorem hasAlt_prod {g : Grammar} {lhs : Term} {e : Expression} (h : Spec.HasAlt g lhs e) :
    ∃ (i : Nat) (p : FlatProd), (ParseGrammar.newUnchecked g).productions[i]? = some p ∧ p.lhs = lhs ∧ p.rhs = e := by
  rw [← mem_flatProds, ← newUnchecked_productions] at h
  obtain ⟨p, hp, he⟩ := List.mem_map.mp h
  obtain ⟨i, hi⟩ := List.mem_iff_getElem?.mp hp
  injection he with h1 h2
  exact ⟨i, p, hi, h1, h2⟩

theorem lhsOf_eq {pg : ParseGrammar} {i : Nat} {p : FlatProd} (h : pg.productions[i]? = some p) :
    lhsOf pg i = p.lhs := by simp [lhsOf, h]

theorem VF.forest {g : Grammar} {ts ks} (h : VF (ParseGrammar.newUnchecked g) ts ks) :
    Spec.IsForest g ts (erase (ParseGrammar.newUnchecked g) ks) := by
  induction h with
  | nil => exact .nil
  | leaf _ ih => exact .terminal ih
  | node h1 h2 _ _ ih1 ih2 =>
    have := prod_hasAlt h1
    rw [h2] at this
    simp only [erase, eraseNode, lhsOf_eq h1, h2]
    exact .nonterminal this ih1 ih2

theorem forest_VF {g : Grammar} {ts ns} (h : Spec.IsForest g ts ns) :
    ∃ ks, VF (ParseGrammar.newUnchecked g) ts ks ∧ erase (ParseGrammar.newUnchecked g) ks = ns := by
  induction h with
  | nil => exact ⟨[], .nil, rfl⟩
  | @terminal s _ _ _ ih =>
    obtain ⟨ks, h1, h2⟩ := ih
    exact ⟨.leaf s :: ks, .leaf h1, by simp [erase, eraseNode, h2]⟩
  | nonterminal ha _ _ ih1 ih2 =>
    obtain ⟨kids, h1, h2⟩ := ih1
    obtain ⟨ks, h3, h4⟩ := ih2
    obtain ⟨i, p, hi, hl, hr⟩ := hasAlt_prod ha
    exact ⟨.node i kids :: ks, .node hi hl (by rw [hr]; exact h1) h3, by simp [erase, eraseNode, h2, h4, lhsOf_eq hi, hl]⟩

/-- Erasure determines the terms and, without duplicate alternatives, the annotated derivation. -/
theorem erase_inj {g : Grammar} (hn : g.flatProds.Nodup) {ts ks}
    (h : VF (ParseGrammar.newUnchecked g) ts ks) :
    ∀ {ts' ks'}, VF (ParseGrammar.newUnchecked g) ts' ks' →
    erase (ParseGrammar.newUnchecked g) ks = erase (ParseGrammar.newUnchecked g) ks' → ts = ts' ∧ ks = ks' := by
  induction h with
  | nil =>
    intro ts' ks' h' he
    cases h' with
    | nil => exact ⟨rfl, rfl⟩
    | leaf _ => simp [erase] at he
    | node _ _ _ _ => simp [erase] at he
  | leaf _ ih =>
    intro ts' ks' h' he
    cases h' with
    | nil => simp [erase] at he
    | leaf h' =>
      simp only [erase, eraseNode, List.cons.injEq, ParseTreeNode.terminal.injEq] at he
      obtain ⟨e1, e2⟩ := ih h' he.2
      simp [e1, e2, he.1]
    | node _ _ _ _ => simp [erase, eraseNode] at he
  | @node pid p n kids ts ks h1 h2 _ _ ih1 ih2 =>
    intro ts' ks' h' he
    cases h' with
    | nil => simp [erase] at he
    | leaf _ => simp [erase, eraseNode] at he
    | @node pid' p' n' kids' ts' ks' h1' h2' hv' hr' =>
      simp only [erase, eraseNode, List.cons.injEq, ParseTreeNode.nonterminal.injEq, lhsOf_eq h1, lhsOf_eq h1',
        h2, h2', Term.nonterminal.injEq] at he
      obtain ⟨⟨e1, e2⟩, e3⟩ := he
      obtain ⟨a1, a2⟩ := ih1 hv' e2
      obtain ⟨b1, b2⟩ := ih2 hr' e3
      have hpid : pid = pid' := by
        have g1 : g.flatProds[pid]? = some (p.lhs, p.rhs) := by
          rw [← newUnchecked_productions, List.getElem?_map, h1]; rfl
        have g2 : g.flatProds[pid']? = some (p'.lhs, p'.rhs) := by
          rw [← newUnchecked_productions, List.getElem?_map, h1']; rfl
        have heq : (p.lhs, p.rhs) = (p'.lhs, p'.rhs) := by
          rw [h2, h2', e1]
          have : p.rhs = p'.rhs := by
            cases hp : p.rhs; cases hp' : p'.rhs; rw [hp, hp'] at a1; simp at a1; rw [a1]
          rw [this]
        obtain ⟨l1, g1⟩ := List.getElem?_eq_some_iff.mp g1
        obtain ⟨l2, g2⟩ := List.getElem?_eq_some_iff.mp g2
        exact (List.Nodup.getElem_inj_iff hn).mp (by rw [g1, g2, heq])
      simp [e1, a2, b1, b2, hpid]

end Bnf
