import Verif.Proofs.Display
import Verif.Proofs.Names
import Verif.Spec.Mermaid

/-! # The Mermaid text determines the tree -/

set_option autoImplicit false

namespace Bnf
open Spec

/-- The edges below the children `ks` of the node `k` with name `l`, the last number used being `c`. -/
def kidEdges : List ParseTreeNode → Str → Nat → Nat → List MermaidEdge
  | [], _, _, _ => []
  | .terminal t :: ks, l, k, c => ((k, l), (c + 1, t)) :: kidEdges ks l k (c + 1)
  | .nonterminal lhs kids :: ks, l, k, c =>
    ((k, l), (c + 1, nodeName (.nonterminal lhs kids))) ::
      (kidEdges kids (nodeName (.nonterminal lhs kids)) (c + 1) (c + 1) ++ kidEdges ks l k (c + 1 + nodesCount kids))

theorem mermaidChildren_edges : ∀ (ks : List ParseTreeNode), AllInnerNonterminals ks → ∀ (l : Str) (k c : Nat),
    mermaidChildren ks (escapeMermaidLabel l) k c = some (edgesText (kidEdges ks l k c), c + nodesCount ks)
  | [], _, l, k, c => by simp [mermaidChildren, edgesText, nodesCount, kidEdges]
  | .terminal t :: ks, h, l, k, c => by
    rw [AllInnerNonterminals] at h
    have h1 := mermaidChildren_edges ks h.2 l k (c + 1)
    rw [mermaidChildren]
    simp only [h1]
    simp [edgesText, mermaidEdge_eq (k, _) (c + 1, _), nodesCount, nodeCount, kidEdges]
    omega
  | .nonterminal lhs kids :: ks, h, l, k, c => by
    rw [AllInnerNonterminals, InnerNonterminals] at h
    obtain ⟨⟨⟨n, rfl⟩, hk⟩, h⟩ := h
    have h1 := mermaidChildren_edges kids hk n (c + 1) (c + 1)
    have h3 := mermaidChildren_edges ks h l k (c + 1 + nodesCount kids)
    rw [mermaidChildren]
    simp only [mermaidTree, h1, h3]
    simp [edgesText, mermaidEdge_eq (k, _) (c + 1, _), nodesCount, nodeCount, kidEdges, nodeName]
    omega

theorem toString_toList (k : Nat) : (toString k).toList = decimal k := by
  show (Nat.repr k).toList = _
  simp [Nat.repr, decimal]

theorem bracket_not_mem_decimal (k : Nat) : '[' ∉ decimal k := by
  intro h
  have := Nat.isDigit_of_mem_toDigits (b := 10) (by omega) (by omega) h
  revert this; decide

theorem escape_injective {s s' : Str} (h : escapeMermaidLabel s = escapeMermaidLabel s') : s = s' := by
  rw [← decode_escape s, h, decode_escape]

theorem edgesText_cons_inj {e e' : MermaidEdge} {E E' : List MermaidEdge} (h : edgesText (e :: E) = edgesText (e' :: E')) :
    e = e' ∧ edgesText E = edgesText E' := by
  obtain ⟨⟨i, a⟩, ⟨j, b⟩⟩ := e
  obtain ⟨⟨i', a'⟩, ⟨j', b'⟩⟩ := e'
  have hq : ∀ s, '"' ∉ escapeMermaidLabel s := escape_safe '"' (by decide) (by decide) (by decide)
  have ev : ∀ (i j : Nat) (a b : Str) (E : List MermaidEdge), edgesText (((i, a), (j, b)) :: E) =
      decimal i ++ '[' :: '"' :: (escapeMermaidLabel a ++ '"' :: ']' :: ' ' :: '-' :: '-' :: '>' :: ' ' ::
        (decimal j ++ '[' :: '"' :: (escapeMermaidLabel b ++ '"' :: ']' :: '\n' :: edgesText E))) := by
    intro i j a b E
    simp [edgesText, edgeLine, decimal]
  rw [ev, ev] at h
  obtain ⟨h1, h⟩ := split_at_char (bracket_not_mem_decimal i) (bracket_not_mem_decimal i') h
  simp only [List.cons.injEq, true_and] at h
  obtain ⟨h2, h⟩ := split_at_char (hq a) (hq a') h
  simp only [List.cons.injEq, true_and] at h
  obtain ⟨h3, h⟩ := split_at_char (bracket_not_mem_decimal j) (bracket_not_mem_decimal j') h
  simp only [List.cons.injEq, true_and] at h
  obtain ⟨h4, h⟩ := split_at_char (hq b) (hq b') h
  simp only [List.cons.injEq, true_and] at h
  rw [decimal_inj h1, decimal_inj h3, escape_injective h2, escape_injective h4]
  exact ⟨rfl, h⟩

theorem edgesText_ne_nil (e : MermaidEdge) (E : List MermaidEdge) : edgesText (e :: E) ≠ [] := by
  intro h
  have := congrArg List.length h
  simp [edgesText, edgeLine] at this

theorem edgesText_inj {E E' : List MermaidEdge} (h : edgesText E = edgesText E') : E = E' := by
  induction E generalizing E' with
  | nil =>
    cases E' with
    | nil => rfl
    | cons e E' => exact absurd h.symm (edgesText_ne_nil e E')
  | cons e E ih =>
    cases E' with
    | nil => exact absurd h (edgesText_ne_nil e E)
    | cons e' E' =>
      have h1 := edgesText_cons_inj (e := e) (e' := e') (E := E) (E' := E') h
      have h2 := ih h1.2
      have h3 := h1.1
      rw [h2, h3]

/-- The remaining edges belong to nodes above `k`. -/
def Above (k : Nat) (R : List MermaidEdge) : Prop := ∀ e ∈ R.head?, e.1.1 < k

theorem above_kids {k k' : Nat} (hk : k < k') {R : List MermaidEdge} (hR : Above k R) (ks : List ParseTreeNode) (l : Str) (c : Nat) :
    Above k' (kidEdges ks l k c ++ R) := by
  intro e he
  match ks with
  | [] => simp only [kidEdges, List.nil_append] at he; exact Nat.lt_trans (hR e he) hk
  | .terminal t :: ks => simp [kidEdges] at he; subst he; exact hk
  | .nonterminal lhs kids :: ks => simp [kidEdges] at he; subst he; exact hk

theorem kidEdges_inj : ∀ (ks : List ParseTreeNode) {ks' : List ParseTreeNode}, AllInnerNonterminals ks → AllInnerNonterminals ks' →
    AllBranching ks → AllBranching ks' → ∀ {l : Str} {k c : Nat} {R R' : List MermaidEdge}, k ≤ c → Above k R → Above k R' →
    kidEdges ks l k c ++ R = kidEdges ks' l k c ++ R' → ks = ks' ∧ R = R'
  | [], [], _, _, _, _, _, _, _, _, _, _, _, _, h => ⟨rfl, by simpa [kidEdges] using h⟩
  | [], .terminal t :: ks', _, _, _, _, _, _, _, R, R', _, h1, _, h => by
    simp [kidEdges] at h
    have := h1 _ (by rw [h]; rfl)
    simp at this
  | [], .nonterminal lhs kids :: ks', _, _, _, _, _, _, _, R, R', _, h1, _, h => by
    simp [kidEdges] at h
    have := h1 _ (by rw [h]; rfl)
    simp at this
  | .terminal t :: ks', [], _, _, _, _, _, _, _, R, R', _, _, h1, h => by
    simp [kidEdges] at h
    have := h1 _ (by rw [← h]; rfl)
    simp at this
  | .nonterminal lhs kids :: ks', [], _, _, _, _, _, _, _, R, R', _, _, h1, h => by
    simp [kidEdges] at h
    have := h1 _ (by rw [← h]; rfl)
    simp at this
  | .terminal t :: ks, .terminal t' :: ks', ha, ha', hb, hb', l, k, c, R, R', hc, hR, hR', h => by
    rw [AllInnerNonterminals] at ha ha'
    rw [AllBranching] at hb hb'
    simp [kidEdges] at h
    obtain ⟨rfl, h⟩ := h
    obtain ⟨rfl, rfl⟩ := kidEdges_inj ks ha.2 ha'.2 hb.2 hb'.2 (by omega) hR hR' h
    exact ⟨rfl, rfl⟩
  | .terminal t :: ks, .nonterminal lhs' kids' :: ks', ha, ha', hb, hb', l, k, c, R, R', hc, hR, hR', h => by
    rw [AllBranching, Branching] at hb'
    simp [kidEdges] at h
    obtain ⟨_, h⟩ := h
    have h1 := above_kids (Nat.lt_succ_self k) hR ks l (c + 1)
    rw [h] at h1
    match kids', hb'.1.1 with
    | .terminal _ :: _, _ => simp [kidEdges, Above] at h1; omega
    | .nonterminal _ _ :: _, _ => simp [kidEdges, Above] at h1; omega
  | .nonterminal lhs' kids' :: ks', .terminal t :: ks, ha, ha', hb, hb', l, k, c, R, R', hc, hR, hR', h => by
    rw [AllBranching, Branching] at hb
    simp [kidEdges] at h
    obtain ⟨_, h⟩ := h
    have h1 := above_kids (Nat.lt_succ_self k) hR' ks l (c + 1)
    rw [← h] at h1
    match kids', hb.1.1 with
    | .terminal _ :: _, _ => simp [kidEdges, Above] at h1; omega
    | .nonterminal _ _ :: _, _ => simp [kidEdges, Above] at h1; omega
  | .nonterminal lhs kids :: ks, .nonterminal lhs' kids' :: ks', ha, ha', hb, hb', l, k, c, R, R', hc, hR, hR', h => by
    rw [AllInnerNonterminals, InnerNonterminals] at ha ha'
    rw [AllBranching, Branching] at hb hb'
    obtain ⟨⟨⟨n, rfl⟩, hk⟩, ha⟩ := ha
    obtain ⟨⟨⟨n', rfl⟩, hk'⟩, ha'⟩ := ha'
    simp [kidEdges, nodeName] at h
    obtain ⟨rfl, h⟩ := h
    obtain ⟨rfl, h⟩ := kidEdges_inj kids hk hk' hb.1.2 hb'.1.2 (Nat.le_refl _)
      (above_kids (by omega) hR ks l _) (above_kids (by omega) hR' ks' l _) h
    obtain ⟨rfl, rfl⟩ := kidEdges_inj ks ha ha' hb.2 hb'.2 (by omega) hR hR' h
    exact ⟨rfl, rfl⟩

theorem mermaid_edges {t : ParseTree} (h : InnerNonterminals (.nonterminal t.lhs t.rhs)) :
    ∃ n, t.lhs = .nonterminal n ∧ t.mermaid = some ("flowchart TD\n".toList ++ edgesText (kidEdges t.rhs n 0 0)) := by
  obtain ⟨lhs, rhs⟩ := t
  rw [InnerNonterminals] at h
  obtain ⟨⟨n, hn⟩, hk⟩ := h
  simp only at hn hk ⊢
  subst hn
  refine ⟨n, rfl, ?_⟩
  rw [ParseTree.mermaid, mermaidTree]
  simp only [mermaidChildren_edges rhs hk]
  simp

theorem mermaid_injective {t t' : ParseTree} (h : InnerNonterminals (.nonterminal t.lhs t.rhs))
    (h' : InnerNonterminals (.nonterminal t'.lhs t'.rhs)) (hb : Branching (.nonterminal t.lhs t.rhs))
    (hb' : Branching (.nonterminal t'.lhs t'.rhs)) (he : t.mermaid = t'.mermaid) : t = t' := by
  obtain ⟨n, e1, e2⟩ := mermaid_edges h
  obtain ⟨n', e1', e2'⟩ := mermaid_edges h'
  rw [e2, e2', Option.some.injEq] at he
  have hE := edgesText_inj (List.append_cancel_left he)
  clear he e2 e2'
  obtain ⟨lhs, rhs⟩ := t
  obtain ⟨lhs', rhs'⟩ := t'
  simp only at e1 e1' hE h h' hb hb'
  subst e1; subst e1'
  rw [InnerNonterminals] at h h'
  rw [Branching] at hb hb'
  have hnn : n = n' := by
    match rhs, rhs', hb.1, hb'.1, hE with
    | .terminal _ :: _, .terminal _ :: _, _, _, hE => simp [kidEdges] at hE; exact hE.1.1
    | .terminal _ :: _, .nonterminal _ _ :: _, _, _, hE => simp [kidEdges] at hE; exact hE.1.1
    | .nonterminal _ _ :: _, .terminal _ :: _, _, _, hE => simp [kidEdges] at hE; exact hE.1.1
    | .nonterminal _ _ :: _, .nonterminal _ _ :: _, _, _, hE => simp [kidEdges] at hE; exact hE.1.1
  subst hnn
  have := (kidEdges_inj rhs h.2 h'.2 hb.2 hb'.2 (l := n) (k := 0) (c := 0) (R := []) (R' := []) (Nat.le_refl _)
    (by intro e he; cases he) (by intro e he; cases he) (by rw [hE])).1
  rw [this]

theorem branching_of_forest {g : Grammar} (hne : ∀ l e, HasAlt g l e → e.terms ≠ []) {ts ns} (h : IsForest g ts ns) :
    AllBranching ns ∧ (ts ≠ [] → ns ≠ []) := by
  induction h with
  | nil => simp [AllBranching]
  | terminal _ ih => simp [AllBranching, Branching, ih]
  | nonterminal ha _ _ ih1 ih2 => simp [AllBranching, Branching, ih1, ih2, hne _ _ ha]

end Bnf
