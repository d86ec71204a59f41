import Verif.Proofs.OrderPlain
import Verif.Props.Parsing
import Mathlib.Data.List.Perm.Subperm
import Mathlib.Data.List.ProdSigma

/-! # C74, C75: the order of the trees -/

set_option autoImplicit false

namespace Bnf.Props
open Bnf Bnf.Spec

/-- C74: if in a returned tree a node is replaced by a node inside it with the same label that spells the same text (a detour is left out),
the tree so obtained was returned before. The node may be the root. -/
theorem C74_shorter_first {g S input it pre t post it'} (ho : Opened g S input it) (hd : Draws it (pre ++ t :: post) it') {t' : ParseTree}
    {l kk kk'} (hin : NodeIn (.nonterminal l kk') kk) (hy : yield kk' = yield kk)
    (hr : Replaced (.nonterminal l kk) (.nonterminal l kk') [.nonterminal t.lhs t.rhs] [.nonterminal t'.lhs t'.rhs]) :
    t' ∈ pre :=
  draws_order ho hd hin hy hr

theorem replaced_exists {a : ParseTreeNode} (b : ParseTreeNode) {ns : List ParseTreeNode} (h : NodeIn a ns) : ∃ ns', Replaced a b ns ns' := by
  induction h with
  | here => exact ⟨_, .here⟩
  | there _ ih => obtain ⟨ns', h⟩ := ih; exact ⟨_, .there h⟩
  | inside _ ih => obtain ⟨ns', h⟩ := ih; exact ⟨_, .inside h⟩

/-- C74: the first tree has no detours: no node contains another node with the same label and text. -/
theorem C74_first_tree {g S input it t it'} (ho : Opened g S input it) (hn : Next it (some t) it') {l kk kk'}
    (h : NodeIn (.nonterminal l kk) [.nonterminal t.lhs t.rhs]) (hin : NodeIn (.nonterminal l kk') kk) : yield kk' ≠ yield kk := by
  intro hy
  obtain ⟨ns', hr⟩ := replaced_exists (.nonterminal l kk') h
  obtain ⟨t', rfl⟩ : ∃ t' : ParseTree, ns' = [.nonterminal t'.lhs t'.rhs] := by
    generalize t.lhs = x at hr
    generalize t.rhs = y at hr
    cases hr with
    | here => exact ⟨⟨l, kk'⟩, rfl⟩
    | there h => cases h
    | @inside _ _ k' _ h => exact ⟨⟨x, k'⟩, rfl⟩
  have := C74_shorter_first (pre := []) (post := []) ho (.cons hn .nil) hin hy hr
  cases this

/-- `<a> ::= <a> | 'z'` on "z": each returned tree has one detour more than the one before. -/
example : ∃ it it', Opened gCyc (.nonterminal ['a']) ['z'] it ∧ Draws it ([⟨.nonterminal ['a'], [.terminal ['z']]⟩] ++
      (⟨.nonterminal ['a'], [.nonterminal (.nonterminal ['a']) [.terminal ['z']]]⟩ : ParseTree) :: []) it' ∧
    NodeIn (.nonterminal (.nonterminal ['a']) [.terminal ['z']]) [.nonterminal (.nonterminal ['a']) [.terminal ['z']]] :=
  ⟨_, _, .deprecatedStarting rfl, .cons ⟨100, rfl⟩ (.cons ⟨100, rfl⟩ .nil), .here⟩

theorem nodeIn_of_mem {a : ParseTreeNode} {ns : List ParseTreeNode} (h : a ∈ ns) : NodeIn a ns := by
  induction ns with
  | nil => simp at h
  | cons n ns ih =>
    rcases List.mem_cons.mp h with rfl | h
    · exact .here
    · exact .there (ih h)

theorem nodeIn_inside {a : ParseTreeNode} {l kids} {ns : List ParseTreeNode} (h : .nonterminal l kids ∈ ns) (ha : NodeIn a kids) : NodeIn a ns := by
  induction ns with
  | nil => simp at h
  | cons n ns ih =>
    rcases List.mem_cons.mp h with rfl | h
    · exact .inside ha
    · exact .there (ih h)

theorem way_nodeIn {ps ns} (h : Way ps ns) : ∀ p ∈ ps, NodeIn (.nonterminal p.lhs p.rhs) ns := by
  induction h with
  | nil => simp
  | cons hm _ ih =>
    intro p hp
    rcases List.mem_cons.mp hp with rfl | hp
    · exact nodeIn_of_mem hm
    · exact nodeIn_inside hm (ih p hp)

theorem way_pairwise {ps ns} (h : Way ps ns) : ps.Pairwise fun p q => NodeIn (.nonterminal q.lhs q.rhs) p.rhs := by
  induction h with
  | nil => exact .nil
  | cons hm hw ih => exact List.pairwise_cons.mpr ⟨fun q hq => way_nodeIn hw q hq, ih⟩

theorem nodeIn_yield {l kk} {ns : List ParseTreeNode} (h : NodeIn (.nonterminal l kk) ns) : ∃ u v, yield ns = u ++ yield kk ++ v := by
  induction h with
  | @here ns => exact ⟨[], yield ns, by simp [yield, nodeYield]⟩
  | @there n _ _ ih => obtain ⟨u, v, h⟩ := ih; exact ⟨nodeYield n ++ u, v, by simp [yield, h]⟩
  | @inside _ _ ns _ ih => obtain ⟨u, v, h⟩ := ih; exact ⟨u, v ++ yield ns, by simp [yield, nodeYield, h]⟩

/-- C74: hence the depth of the first tree is bounded by the number of productions and the length of the input. -/
theorem C74_depth {g S input it t it'} (ho : Opened g S input it) (hn : Next it (some t) it') {ps}
    (hw : Way ps [.nonterminal t.lhs t.rhs]) : ps.length ≤ g.productions.length * (input.length + 1) := by
  have hpar := C01_soundness ho (.cons hn .nil) t (by simp)
  have hlist : ∀ p ∈ ps, (p.lhs, (yield p.rhs).length) ∈ (g.productions.map (·.lhs)) ×ˢ (List.range (input.length + 1)) := by
    intro p hp
    have hin := way_nodeIn hw p hp
    refine List.pair_mem_product.mpr ⟨?_, ?_⟩
    · have : ∃ e, HasAlt g p.lhs e := by
        generalize hx : t.lhs = x at hin
        generalize hz : t.rhs = z at hin
        cases hin with
        | here => obtain ⟨e, he, _⟩ := hpar.tree; exact ⟨e, by rw [← hx]; exact he⟩
        | there h => cases h
        | inside h =>
          obtain ⟨e, _, hf⟩ := hpar.tree
          rw [← hz] at h
          obtain ⟨e', he', _⟩ := nodeIn_isTree h hf
          exact ⟨e', he'⟩
      obtain ⟨_, q, hq, hl, _⟩ := this
      exact List.mem_map.mpr ⟨q, hq, hl⟩
    · obtain ⟨u, v, hu⟩ := nodeIn_yield hin
      have hs := hpar.spells
      simp only [yield, nodeYield, hs, List.append_nil] at hu
      rw [List.mem_range, hu]
      simp
      omega
  have hnd : (ps.map fun p => (p.lhs, (yield p.rhs).length)).Nodup := by
    rw [List.Nodup, List.pairwise_map]
    refine (way_pairwise hw).imp_of_mem fun {p q} hp hq hpq heq => ?_
    injection heq with h1 h2
    obtain ⟨u, v, hu⟩ := nodeIn_yield hpq
    have hlen := congrArg List.length hu
    simp only [List.length_append] at hlen
    have hu0 : u = [] := List.length_eq_zero_iff.mp (by omega)
    have hv0 : v = [] := List.length_eq_zero_iff.mp (by omega)
    rw [← h1] at hpq
    exact C74_first_tree ho hn (way_nodeIn hw p hp) hpq (by rw [hu, hu0, hv0]; simp)
  have hsub : (ps.map fun p => (p.lhs, (yield p.rhs).length)) ⊆ (g.productions.map (·.lhs)) ×ˢ (List.range (input.length + 1)) := by
    intro x hx
    obtain ⟨p, hp, rfl⟩ := List.mem_map.mp hx
    exact hlist p hp
  have := (hnd.subperm hsub).length_le
  rw [List.length_product] at this
  simpa using this

/-- The bound is not trivial: `gAmb` has trees of any depth for "x". -/
example : ∃ it t it', Opened gAmb (.nonterminal ['s']) ['x'] it ∧ Next it (some t) it' ∧
    Way [⟨.nonterminal ['s'], [.terminal ['x']]⟩] [.nonterminal t.lhs t.rhs] :=
  ⟨_, _, _, .deprecatedStarting rfl, ⟨100, rfl⟩, .cons (by simp) .nil⟩

/-- C75: a node may be replaced by one with fewer children, each of which is a terminal or the same child after the same text: the tree so
obtained was returned before. -/
theorem C75_fewer_terms {g S input it pre t post it'} (ho : Opened g S input it) (hd : Draws it (pre ++ t :: post) it') {t' : ParseTree}
    {l kk kk'} (halt : ⟨kk'.map rootTerm⟩ ∈ listed g l) (hy : yield kk' = yield kk) (hs : Simpler kk' kk) (hlen : kk'.length < kk.length)
    (hr : Replaced (.nonterminal l kk) (.nonterminal l kk') [.nonterminal t.lhs t.rhs] [.nonterminal t'.lhs t'.rhs]) :
    t' ∈ pre := by
  refine draws_replace ho hd (fun {_} hro => ?_) hr
  obtain ⟨⟨h', _, ho'⟩, _⟩ := hro.order (PGOk.newUnchecked g) ho.inv.1.inv ho.order
  exact earlier_simpler (hro.inv (PGOk.newUnchecked g) ho.inv.1.inv).1 ho' (hro.siblings (PGOk.newUnchecked g) ho.inv.1.inv ho.siblings) hy hs
    (.inl ⟨halt, hlen⟩)

/-- C75: with the same number of children, the alternative which the grammar lists first comes first. -/
theorem C75_listed_first {g S input it pre t post it'} (ho : Opened g S input it) (hd : Draws it (pre ++ t :: post) it') {t' : ParseTree}
    {l kk kk' a b} (halt : listed g l = a ++ ⟨kk'.map rootTerm⟩ :: b) (hna : ⟨kk.map rootTerm⟩ ∉ a) (hne : kk.map rootTerm ≠ kk'.map rootTerm)
    (hy : yield kk' = yield kk) (hs : Simpler kk' kk) (hlen : kk'.length = kk.length)
    (hr : Replaced (.nonterminal l kk) (.nonterminal l kk') [.nonterminal t.lhs t.rhs] [.nonterminal t'.lhs t'.rhs]) :
    t' ∈ pre := by
  refine draws_replace ho hd (fun {_} hro => ?_) hr
  obtain ⟨⟨h', _, ho'⟩, _⟩ := hro.order (PGOk.newUnchecked g) ho.inv.1.inv ho.order
  exact earlier_simpler (hro.inv (PGOk.newUnchecked g) ho.inv.1.inv).1 ho' (hro.siblings (PGOk.newUnchecked g) ho.inv.1.inv ho.siblings) hy hs
    (.inr ⟨hlen, a, b, halt, hna, hne⟩)

/-- `<s> ::= <b> 'c' | 'a' 'b' 'c' | <b> <c> | 'abc'`, `<b> ::= 'ab'`, `<c> ::= 'c'`. -/
def gFour : Grammar := ⟨[⟨.nonterminal ['s'], [⟨[.nonterminal ['b'], .terminal ['c']]⟩, ⟨[.terminal ['a'], .terminal ['b'], .terminal ['c']]⟩,
    ⟨[.nonterminal ['b'], .nonterminal ['c']]⟩, ⟨[.terminal ['a', 'b', 'c']]⟩]⟩,
  ⟨.nonterminal ['b'], [⟨[.terminal ['a', 'b']]⟩]⟩, ⟨.nonterminal ['c'], [⟨[.terminal ['c']]⟩]⟩]⟩

/-- Three trees before the last one: the fewer-terms rule puts `'abc'` first, the listed-first rule `<b> 'c'` before `<b> <c>`. -/
example : ∃ it it', Opened gFour (.nonterminal ['s']) ['a', 'b', 'c'] it ∧
    Draws it ([⟨.nonterminal ['s'], [.terminal ['a', 'b', 'c']]⟩, ⟨.nonterminal ['s'], [.terminal ['a'], .terminal ['b'], .terminal ['c']]⟩,
        ⟨.nonterminal ['s'], [.nonterminal (.nonterminal ['b']) [.terminal ['a', 'b']], .terminal ['c']]⟩] ++
      (⟨.nonterminal ['s'], [.nonterminal (.nonterminal ['b']) [.terminal ['a', 'b']], .nonterminal (.nonterminal ['c']) [.terminal ['c']]]⟩ :
        ParseTree) :: []) it' ∧
    Simpler [.terminal ['a', 'b', 'c']]
      [.nonterminal (.nonterminal ['b']) [.terminal ['a', 'b']], .nonterminal (.nonterminal ['c']) [.terminal ['c']]] ∧
    Simpler [.nonterminal (.nonterminal ['b']) [.terminal ['a', 'b']], .terminal ['c']]
      [.nonterminal (.nonterminal ['b']) [.terminal ['a', 'b']], .nonterminal (.nonterminal ['c']) [.terminal ['c']]] := by
  refine ⟨_, _, .deprecatedStarting rfl, .cons ⟨100, rfl⟩ (.cons ⟨100, rfl⟩ (.cons ⟨100, rfl⟩ (.cons ⟨100, rfl⟩ .nil))), ?_, ?_⟩
  · intro i hi
    have : i = 0 := by simp at hi; omega
    subst this; exact .inl ⟨_, rfl⟩
  · intro i hi
    have : i = 0 ∨ i = 1 := by simp at hi; omega
    rcases this with rfl | rfl
    · exact .inr ⟨rfl, rfl⟩
    · exact .inl ⟨_, rfl⟩

end Bnf.Props
