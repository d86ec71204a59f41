import Verif.Spec.Rename
import Mathlib.Logic.Function.Basic
import Mathlib.Data.List.Basic

/-! # Renaming and mirroring derivations -/

set_option autoImplicit false

namespace Bnf
open Spec

mutual
theorem nodeYield_ren (f : Str → Str) (c : Char → Char) : ∀ n, nodeYield (renNode f c n) = (nodeYield n).map c
  | .terminal s => by simp [renNode, nodeYield]
  | .nonterminal l kids => by simp [renNode, nodeYield, yield_ren f c kids]
theorem yield_ren (f : Str → Str) (c : Char → Char) : ∀ ns, yield (renNodes f c ns) = (yield ns).map c
  | [] => by simp [renNodes, yield]
  | k :: ks => by simp [renNodes, yield, nodeYield_ren f c k, yield_ren f c ks]
end

theorem hasAlt_ren {f : Str → Str} {c : Char → Char} {g l e} (h : HasAlt g l e) :
    HasAlt (renGrammar f c g) (renTerm f c l) ⟨e.terms.map (renTerm f c)⟩ := by
  obtain ⟨p, hp, rfl, he⟩ := h
  exact ⟨_, List.mem_map.mpr ⟨p, hp, rfl⟩, rfl, List.mem_map.mpr ⟨e, he, rfl⟩⟩

theorem isForest_ren {f : Str → Str} {c : Char → Char} {g ts ns} (h : IsForest g ts ns) :
    IsForest (renGrammar f c g) (ts.map (renTerm f c)) (renNodes f c ns) := by
  induction h with
  | nil => simp [renNodes]; exact .nil
  | terminal _ ih => simp [renNodes, renNode, renTerm]; exact .terminal ih
  | nonterminal ha _ _ ih1 ih2 =>
    simp only [List.map_cons, renNodes, renNode, renTerm]
    exact .nonterminal (hasAlt_ren ha) ih1 ih2

theorem isParse_ren (f : Str → Str) (c : Char → Char) {g S w t} (h : IsParse g S w t) :
    IsParse (renGrammar f c g) (renTerm f c S) (w.map c) (renTree f c t) := by
  obtain ⟨rfl, ⟨e, ha, hf⟩, rfl⟩ := h
  exact ⟨rfl, ⟨_, hasAlt_ren ha, isForest_ren hf⟩, yield_ren f c t.rhs⟩

theorem renTerm_inj {f : Str → Str} {c : Char → Char} (hf : Function.Injective f) (hc : Function.Injective c) :
    Function.Injective (renTerm f c) := by
  intro a b h
  cases a <;> cases b <;> simp [renTerm] at h
  · rw [List.map_injective_iff.mpr hc h]
  · rw [hf h]

theorem hasAlt_unren {f : Str → Str} {c : Char → Char} (hf : Function.Injective f) (hc : Function.Injective c) {g l e'}
    (h : HasAlt (renGrammar f c g) (renTerm f c l) e') : ∃ e, HasAlt g l e ∧ e' = ⟨e.terms.map (renTerm f c)⟩ := by
  obtain ⟨p', hp', hl, he⟩ := h
  obtain ⟨p, hp, rfl⟩ := List.mem_map.mp hp'
  obtain ⟨e, he', rfl⟩ := List.mem_map.mp he
  exact ⟨e, ⟨p, hp, renTerm_inj hf hc hl, he'⟩, rfl⟩

theorem isForest_unren {f : Str → Str} {c : Char → Char} (hf : Function.Injective f) (hc : Function.Injective c) {g ts' ns'}
    (h : IsForest (renGrammar f c g) ts' ns') : ∀ ts, ts' = ts.map (renTerm f c) →
    ∃ ns, ns' = renNodes f c ns ∧ IsForest g ts ns := by
  induction h with
  | nil =>
    intro ts he
    cases ts with
    | nil => exact ⟨[], by simp [renNodes], .nil⟩
    | cons t ts => simp at he
  | terminal _ ih =>
    intro ts he
    cases ts with
    | nil => simp at he
    | cons t ts =>
      simp only [List.map_cons, List.cons.injEq] at he
      obtain ⟨ns, rfl, hn⟩ := ih ts he.2
      cases t with
      | terminal s =>
        have h1 := he.1
        simp only [renTerm, Term.terminal.injEq] at h1
        exact ⟨.terminal s :: ns, by simp [renNodes, renNode, h1], .terminal hn⟩
      | nonterminal n => simp [renTerm] at he
  | nonterminal ha _ _ ih1 ih2 =>
    intro ts he
    cases ts with
    | nil => simp at he
    | cons t ts =>
      simp only [List.map_cons, List.cons.injEq] at he
      obtain ⟨ns, rfl, hn⟩ := ih2 ts he.2
      cases t with
      | terminal s => simp [renTerm] at he
      | nonterminal n =>
        have h1 := he.1
        rw [h1] at ha
        obtain ⟨e, ha', rfl⟩ := hasAlt_unren hf hc ha
        obtain ⟨kids, rfl, hk⟩ := ih1 _ rfl
        exact ⟨.nonterminal (.nonterminal n) kids :: ns, by simp [renNodes, renNode, h1], .nonterminal ha' hk hn⟩

theorem isParse_unren {f : Str → Str} {c : Char → Char} (hf : Function.Injective f) (hc : Function.Injective c) {g S w t'}
    (h : IsParse (renGrammar f c g) (renTerm f c S) (w.map c) t') : ∃ t, t' = renTree f c t ∧ IsParse g S w t := by
  obtain ⟨hr, ⟨e', ha, hfor⟩, hs⟩ := h
  rw [hr] at ha
  obtain ⟨e, ha', rfl⟩ := hasAlt_unren hf hc ha
  obtain ⟨ns, hn, hf'⟩ := isForest_unren hf hc hfor _ rfl
  refine ⟨⟨S, ns⟩, ?_, rfl, ⟨e, ha', hf'⟩, ?_⟩
  · obtain ⟨l, r⟩ := t'
    simp only at hr hn
    simp [renTree, hr, hn]
  · rw [hn, yield_ren] at hs
    exact List.map_injective_iff.mpr hc hs

mutual
theorem renNode_inj {f : Str → Str} {c : Char → Char} (hf : Function.Injective f) (hc : Function.Injective c) :
    ∀ {a b : ParseTreeNode}, renNode f c a = renNode f c b → a = b
  | .terminal s, .terminal s', h => by simp [renNode] at h; rw [List.map_injective_iff.mpr hc h]
  | .terminal s, .nonterminal _ _, h => by simp [renNode] at h
  | .nonterminal _ _, .terminal _, h => by simp [renNode] at h
  | .nonterminal l ks, .nonterminal l' ks', h => by
    simp [renNode] at h
    rw [renTerm_inj hf hc h.1, renNodes_inj hf hc h.2]
theorem renNodes_inj {f : Str → Str} {c : Char → Char} (hf : Function.Injective f) (hc : Function.Injective c) :
    ∀ {a b : List ParseTreeNode}, renNodes f c a = renNodes f c b → a = b
  | [], [], _ => rfl
  | [], _ :: _, h => by simp [renNodes] at h
  | _ :: _, [], h => by simp [renNodes] at h
  | k :: ks, k' :: ks', h => by
    simp [renNodes] at h
    rw [renNode_inj hf hc h.1, renNodes_inj hf hc h.2]
end

theorem renTree_inj {f : Str → Str} {c : Char → Char} (hf : Function.Injective f) (hc : Function.Injective c) :
    Function.Injective (renTree f c) := by
  rintro ⟨l, r⟩ ⟨l', r'⟩ h
  simp [renTree] at h
  rw [renTerm_inj hf hc h.1, renNodes_inj hf hc h.2]

/-! ## Mirroring -/

theorem mirTerm_mirTerm (t : Term) : mirTerm (mirTerm t) = t := by cases t <;> simp [mirTerm]

theorem mirGrammar_mirGrammar (g : Grammar) : mirGrammar (mirGrammar g) = g := by
  obtain ⟨ps⟩ := g
  simp only [mirGrammar, List.map_map, Function.comp_def]
  congr 1
  rw [List.map_congr_left (g := id), List.map_id]
  rintro ⟨l, r⟩ _
  simp only [id]
  congr 1
  rw [List.map_congr_left (g := id), List.map_id]
  rintro ⟨e⟩ _
  simp [Function.comp_def, mirTerm_mirTerm]

theorem mirNodes_append (a b : List ParseTreeNode) : mirNodes (a ++ b) = mirNodes b ++ mirNodes a := by
  induction a with
  | nil => simp [mirNodes]
  | cons k ks ih => simp [mirNodes, ih]

mutual
theorem mirNode_mirNode : ∀ n, mirNode (mirNode n) = n
  | .terminal s => by simp [mirNode]
  | .nonterminal l kids => by simp [mirNode, mirNodes_mirNodes kids]
theorem mirNodes_mirNodes : ∀ ns, mirNodes (mirNodes ns) = ns
  | [] => by simp [mirNodes]
  | k :: ks => by simp [mirNodes, mirNodes_append, mirNode_mirNode k, mirNodes_mirNodes ks]
end

theorem mirTree_mirTree (t : ParseTree) : mirTree (mirTree t) = t := by simp [mirTree, mirNodes_mirNodes]

theorem yield_append_mir (a b : List ParseTreeNode) : yield (a ++ b) = yield a ++ yield b := by
  induction a with
  | nil => simp [yield]
  | cons k ks ih => simp [yield, ih]

mutual
theorem nodeYield_mir : ∀ n, nodeYield (mirNode n) = (nodeYield n).reverse
  | .terminal s => by simp [mirNode, nodeYield]
  | .nonterminal l kids => by simp [mirNode, nodeYield, yield_mir kids]
theorem yield_mir : ∀ ns, yield (mirNodes ns) = (yield ns).reverse
  | [] => by simp [mirNodes, yield]
  | k :: ks => by simp [mirNodes, yield, yield_append_mir, nodeYield_mir k, yield_mir ks]
end

theorem isForest_append_mir {g ts us ns ms} (h : IsForest g ts ns) (h' : IsForest g us ms) : IsForest g (ts ++ us) (ns ++ ms) := by
  induction h with
  | nil => exact h'
  | terminal _ ih => exact .terminal ih
  | nonterminal ha hk _ _ ih => exact .nonterminal ha hk ih

theorem hasAlt_mir {g l e} (h : HasAlt g l e) : HasAlt (mirGrammar g) l ⟨(e.terms.map mirTerm).reverse⟩ := by
  obtain ⟨p, hp, rfl, he⟩ := h
  exact ⟨_, List.mem_map.mpr ⟨p, hp, rfl⟩, rfl, List.mem_map.mpr ⟨e, he, rfl⟩⟩

theorem isForest_mir {g ts ns} (h : IsForest g ts ns) : IsForest (mirGrammar g) (ts.map mirTerm).reverse (mirNodes ns) := by
  induction h with
  | nil => simp [mirNodes]; exact .nil
  | terminal _ ih =>
    simp only [List.map_cons, List.reverse_cons, mirNodes, mirNode, mirTerm]
    exact isForest_append_mir ih (.terminal .nil)
  | nonterminal ha _ _ ih1 ih2 =>
    simp only [List.map_cons, List.reverse_cons, mirNodes, mirNode, mirTerm]
    exact isForest_append_mir ih2 (.nonterminal (hasAlt_mir ha) ih1 .nil)

theorem isParse_mir {g S w t} (h : IsParse g S w t) : IsParse (mirGrammar g) S w.reverse (mirTree t) := by
  obtain ⟨rfl, ⟨e, ha, hf⟩, rfl⟩ := h
  exact ⟨rfl, ⟨_, hasAlt_mir ha, isForest_mir hf⟩, yield_mir t.rhs⟩

theorem isParse_mir_iff {g S w t} : IsParse (mirGrammar g) S w.reverse (mirTree t) ↔ IsParse g S w t := by
  refine ⟨fun h => ?_, isParse_mir⟩
  have := isParse_mir h
  rwa [mirGrammar_mirGrammar, List.reverse_reverse, mirTree_mirTree] at this

end Bnf
