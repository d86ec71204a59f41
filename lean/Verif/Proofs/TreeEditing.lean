import Verif.Model.TreeEditing
import Verif.Model.Display
import Verif.Spec.Display
import Verif.Proofs.Parts

set_option autoImplicit false

namespace Bnf.TreeEditing

open Spec

variable {f : ParseTreeNode → ParseTreeNode}

theorem replaced_head {a b k k' : ParseTreeNode} (h : Replaced a b [k] [k']) (ns : List ParseTreeNode) : Replaced a b (k :: ns) (k' :: ns) := by
  cases h with
  | here => exact .here
  | there h => cases h
  | inside h => exact .inside h

theorem replaced_writeAt {a b k : ParseTreeNode} {e : ParseTreeNode → ParseTreeNode} (h : Replaced a b [k] [e k]) :
    ∀ {ns : List ParseTreeNode} {i : Nat}, ns[i]? = some k → Replaced a b ns (writeAt e ns i)
  | [], i, hi => by simp at hi
  | n :: ns, 0, hi => by
    simp only [List.getElem?_cons_zero, Option.some.injEq] at hi
    subst hi
    exact replaced_head h ns
  | n :: ns, i + 1, hi => .there (replaced_writeAt h (by simpa using hi))

theorem replaced_node {a : ParseTreeNode} : ∀ {path : List Nat} {n : ParseTreeNode}, n.getAt path = some a →
    Replaced a (f a) [n] [n.editAt f path]
  | [], n, h => by cases h; exact .here
  | i :: path, .nonterminal l kids, h => by
    rw [ParseTreeNode.getAt, Option.bind_eq_some_iff] at h
    obtain ⟨k, h1, h2⟩ := h
    exact .inside (replaced_writeAt (replaced_node h2) h1)
  | _ :: _, .terminal s, h => by simp [ParseTreeNode.getAt] at h

theorem replaced_tree {a : ParseTreeNode} {t : ParseTree} {i path} (h : t.getAt i path = some a) :
    Replaced a (f a) t.rhs (t.editAt i path f).rhs := by
  rw [ParseTree.getAt, Option.bind_eq_some_iff] at h
  obtain ⟨k, h1, h2⟩ := h
  exact replaced_writeAt (replaced_node h2) h1

theorem writeAt_same {α : Type} {e : α → α} : ∀ {l : List α} {i : Nat}, (∀ x, l[i]? = some x → e x = x) → writeAt e l i = l
  | [], _, _ => rfl
  | x :: xs, 0, h => by rw [writeAt, h x rfl]
  | x :: xs, i + 1, h => by rw [writeAt, writeAt_same (fun y hy => h y (by simpa using hy))]

theorem editAt_none : ∀ {path : List Nat} {n : ParseTreeNode}, n.getAt path = none → n.editAt f path = n
  | [], n, h => by simp [ParseTreeNode.getAt] at h
  | i :: path, .nonterminal l kids, h => by
    rw [ParseTreeNode.getAt, Option.bind_eq_none_iff] at h
    rw [ParseTreeNode.editAt, writeAt_same fun x hx => editAt_none (h x hx)]
  | _ :: _, .terminal s, _ => rfl

theorem editTree_none {t : ParseTree} {i path} (h : t.getAt i path = none) : t.editAt i path f = t := by
  rw [ParseTree.getAt, Option.bind_eq_none_iff] at h
  rw [ParseTree.editAt, writeAt_same fun x hx => editAt_none (h x hx)]

theorem getElem_writeAt {α : Type} (e : α → α) : ∀ (l : List α) (i j : Nat), (writeAt e l i)[j]? = if i = j then (l[j]?).map e else l[j]?
  | [], i, j => by simp [writeAt]
  | x :: xs, 0, 0 => by simp [writeAt]
  | x :: xs, 0, j + 1 => by simp [writeAt]
  | x :: xs, i + 1, 0 => by simp [writeAt]
  | x :: xs, i + 1, j + 1 => by
    rw [writeAt, List.getElem?_cons_succ, getElem_writeAt e xs i j, List.getElem?_cons_succ]
    simp

theorem getAt_same : ∀ (path : List Nat) (n : ParseTreeNode), (n.editAt f path).getAt path = (n.getAt path).map f
  | [], n => rfl
  | i :: path, .nonterminal l kids => by
    rw [ParseTreeNode.editAt, ParseTreeNode.getAt, ParseTreeNode.getAt, getElem_writeAt, if_pos rfl]
    cases kids[i]? with
    | none => rfl
    | some k => exact getAt_same path k
  | _ :: _, .terminal s => rfl

theorem getAt_other : ∀ (path other : List Nat) (n : ParseTreeNode), ¬ path <+: other → ¬ other <+: path →
    (n.editAt f path).getAt other = n.getAt other
  | [], other, _, h, _ => absurd (List.nil_prefix) h
  | _, [], _, _, h => absurd (List.nil_prefix) h
  | i :: path, j :: other, .nonterminal l kids, h, h' => by
    rw [ParseTreeNode.editAt, ParseTreeNode.getAt, ParseTreeNode.getAt, getElem_writeAt]
    by_cases hij : i = j
    · subst hij
      rw [if_pos rfl]
      rw [List.cons_prefix_cons] at h h'
      cases kids[i]? with
      | none => rfl
      | some k => exact getAt_other path other k (fun hh => h ⟨rfl, hh⟩) (fun hh => h' ⟨rfl, hh⟩)
    · rw [if_neg hij]
  | _ :: _, _ :: _, .terminal s, _, _ => rfl

theorem writeAt_comm {α : Type} (e e' : α → α) : ∀ (l : List α) (i j : Nat), i ≠ j → writeAt e' (writeAt e l i) j = writeAt e (writeAt e' l j) i
  | [], _, _, _ => rfl
  | _ :: _, 0, 0, h => absurd rfl h
  | _ :: _, 0, _ + 1, _ => rfl
  | _ :: _, _ + 1, 0, _ => rfl
  | x :: xs, i + 1, j + 1, h => by simp only [writeAt]; rw [writeAt_comm e e' xs i j (by omega)]

theorem writeAt_writeAt {α : Type} (e e' : α → α) : ∀ (l : List α) (i : Nat), writeAt e' (writeAt e l i) i = writeAt (fun x => e' (e x)) l i
  | [], _ => rfl
  | _ :: _, 0 => rfl
  | x :: xs, i + 1 => by simp only [writeAt]; rw [writeAt_writeAt e e' xs i]

theorem editAt_comm {f' : ParseTreeNode → ParseTreeNode} : ∀ (path other : List Nat) (n : ParseTreeNode), ¬ path <+: other → ¬ other <+: path →
    (n.editAt f path).editAt f' other = (n.editAt f' other).editAt f path
  | [], _, _, h, _ => absurd (List.nil_prefix) h
  | _, [], _, _, h => absurd (List.nil_prefix) h
  | i :: path, j :: other, .nonterminal l kids, h, h' => by
    simp only [ParseTreeNode.editAt]
    by_cases hij : i = j
    · subst hij
      rw [List.cons_prefix_cons] at h h'
      rw [writeAt_writeAt, writeAt_writeAt]
      congr 2
      funext k
      exact editAt_comm path other k (fun hh => h ⟨rfl, hh⟩) (fun hh => h' ⟨rfl, hh⟩)
    · rw [writeAt_comm _ _ _ _ _ hij]
  | _ :: _, _ :: _, .terminal s, _, _ => rfl

theorem editAt_twice {f' : ParseTreeNode → ParseTreeNode} : ∀ (path : List Nat) (n : ParseTreeNode),
    (n.editAt f path).editAt f' path = n.editAt (fun x => f' (f x)) path
  | [], _ => rfl
  | i :: path, .nonterminal l kids => by
    simp only [ParseTreeNode.editAt]
    rw [writeAt_writeAt]
    congr 2
    funext k
    exact editAt_twice path k
  | _ :: _, .terminal s => rfl

theorem replaced_yield {a b : ParseTreeNode} {ns ns' : List ParseTreeNode} (h : Replaced a b ns ns') :
    ∃ before after, yield ns = before ++ nodeYield a ++ after ∧ yield ns' = before ++ nodeYield b ++ after := by
  induction h with
  | @here ns => exact ⟨[], yield ns, by simp [yield], by simp [yield]⟩
  | @there n _ _ _ ih =>
    obtain ⟨u, v, h1, h2⟩ := ih
    exact ⟨nodeYield n ++ u, v, by simp [yield, h1], by simp [yield, h2]⟩
  | @inside l _ _ ns _ ih =>
    obtain ⟨u, v, h1, h2⟩ := ih
    exact ⟨u, v ++ yield ns, by simp [yield, nodeYield, h1], by simp [yield, nodeYield, h2]⟩

theorem replaced_isForest {g : Grammar} {l k k'} {ns ns'} (h : Replaced (.nonterminal l k) (.nonterminal l k') ns ns')
    (ht : IsTree g ⟨l, k'⟩) : ∀ {ts}, IsForest g ts ns → IsForest g ts ns' := by
  induction h with
  | here =>
    intro ts hf
    cases hf with
    | nonterminal _ _ h =>
      obtain ⟨e, ha', hf'⟩ := ht
      exact .nonterminal ha' hf' h
  | there _ ih =>
    intro ts hf
    cases hf with
    | terminal h => exact .terminal (ih h)
    | nonterminal ha hk h => exact .nonterminal ha hk (ih h)
  | inside _ ih =>
    intro ts hf
    cases hf with
    | nonterminal ha hk h => exact .nonterminal ha (ih hk) h

theorem replaced_nodeIn {a b : ParseTreeNode} {ns ns' : List ParseTreeNode} (h : Replaced a b ns ns') : NodeIn b ns' := by
  induction h with
  | here => exact .here
  | there _ ih => exact .there ih
  | inside _ ih => exact .inside ih

mutual
theorem mermaidTree_none : ∀ (l : Term) (kids : List ParseTreeNode) (count : Nat),
    mermaidTree l kids count = none ↔ ¬ InnerNonterminals (.nonterminal l kids)
  | .terminal s, kids, count => by simp [mermaidTree, InnerNonterminals]
  | .nonterminal n, kids, count => by
    have h := mermaidChildren_none kids (escapeMermaidLabel n) count count
    rw [InnerNonterminals, mermaidTree]
    simp only [Term.nonterminal.injEq, exists_eq', true_and]
    rw [← h]
    cases mermaidChildren kids (escapeMermaidLabel n) count count <;> simp

theorem mermaidChildren_none : ∀ (kids : List ParseTreeNode) (lhs : Str) (lc count : Nat),
    mermaidChildren kids lhs lc count = none ↔ ¬ AllInnerNonterminals kids
  | [], _, _, _ => by simp [mermaidChildren, AllInnerNonterminals]
  | .terminal t :: ns, lhs, lc, count => by
    have h := mermaidChildren_none ns lhs lc (count + 1)
    rw [AllInnerNonterminals, InnerNonterminals, true_and, ← h, mermaidChildren]
    cases mermaidChildren ns lhs lc (count + 1) <;> simp
  | .nonterminal (.terminal s) kids :: ns, lhs, lc, count => by simp [mermaidChildren, AllInnerNonterminals, InnerNonterminals]
  | .nonterminal (.nonterminal n) kids :: ns, lhs, lc, count => by
    have h := mermaidTree_none (.nonterminal n) kids (count + 1)
    rw [AllInnerNonterminals, mermaidChildren]
    cases h1 : mermaidTree (.nonterminal n) kids (count + 1) with
    | none => simp [h.mp h1]
    | some x =>
      obtain ⟨inner, count'⟩ := x
      have h2 := mermaidChildren_none ns lhs lc count'
      have h3 : InnerNonterminals (.nonterminal (.nonterminal n) kids) := by
        apply Classical.byContradiction; intro hc; rw [h.mpr hc] at h1; cases h1
      simp only [h3, true_and]
      rw [← h2]
      cases mermaidChildren ns lhs lc count' <;> simp
end

end Bnf.TreeEditing
