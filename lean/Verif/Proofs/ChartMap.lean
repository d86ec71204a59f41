import Verif.Proofs.Chart
import Verif.Proofs.Rename

/-! Charts of renamed grammars and of grammars with the same alternatives. -/

set_option autoImplicit false

namespace Bnf
open Spec

/-! ## The same alternatives -/

theorem chart_needed {g g' : Grammar} {S : Term} {input : Str} (h : ∀ T, Needed g S T → listed g T = listed g' T) (k : Nat) :
    chart g S input k = chart g' S input k ∧
      ∀ x ∈ chart g S input k, Needed g S x.lhs ∧ ∃ e ∈ listed g x.lhs, ∃ pre, e.terms = pre ++ x.todo := by
  induction k with
  | zero =>
    refine ⟨by simp only [chart, Spec.begin, h S .start], ?_⟩
    intro x hx
    simp only [chart, Spec.begin, List.mem_map] at hx
    obtain ⟨e, he, rfl⟩ := hx
    exact ⟨.start, e, he, [], rfl⟩
  | succ k ih =>
    obtain ⟨ih1, ih2⟩ := ih
    rw [chart, chart, ← ih1]
    cases hx : (chart g S input k)[k]? with
    | none => exact ⟨rfl, ih2⟩
    | some x =>
      simp only
      have hxm := List.mem_of_getElem? hx
      obtain ⟨hn, e, he, pre, hpre⟩ := ih2 x hxm
      have hnn : ∀ n ts, x.todo = .nonterminal n :: ts → Needed g S (.nonterminal n) := fun n ts htd =>
        .used hn he (by rw [hpre, htd]; simp)
      have hext : ∀ y ∈ chart g S input k, ∀ kd r, Needed g S (y.extend kd r).lhs ∧
          ∃ e ∈ listed g (y.extend kd r).lhs, ∃ pre, e.terms = pre ++ (y.extend kd r).todo := by
        intro y hy kd r
        obtain ⟨h1, e, h2, pre, h3⟩ := ih2 y hy
        refine ⟨h1, e, h2, ?_⟩
        simp only [ChartItem.extend]
        cases htd : y.todo with
        | nil => exact ⟨pre, by rw [h3, htd]; rfl⟩
        | cons T ts => exact ⟨pre ++ [T], by rw [h3, htd]; simp⟩
      constructor
      · congr 1
        unfold arising
        cases htd : x.todo with
        | nil => rfl
        | cons T ts =>
          cases T with
          | terminal u => rfl
          | nonterminal n => simp only [Spec.begin, h _ (hnn n ts htd)]
      · intro y hy
        rcases List.mem_append.mp hy with hy | hy
        · exact ih2 y hy
        · unfold arising at hy
          split at hy
          · split at hy
            · simp at hy
            · obtain ⟨w, hw, rfl⟩ := List.mem_map.mp hy
              exact hext w (List.mem_of_mem_take (List.mem_filter.mp hw).1) _ _
          · rename_i n ts htd
            rcases List.mem_append.mp hy with hy | hy
            · split at hy
              · simp at hy
              · simp only [Spec.begin, List.mem_map] at hy
                obtain ⟨e, he, rfl⟩ := hy
                exact ⟨hnn n ts htd, e, he, [], rfl⟩
            · obtain ⟨w, hw, rfl⟩ := List.mem_map.mp hy
              exact hext x hxm _ _
          · split at hy
            · rw [List.mem_singleton.mp hy]; exact hext x hxm _ _
            · simp at hy

theorem found_needed {g g' : Grammar} {S : Term} {input : Str} (h : ∀ T, Needed g S T → listed g T = listed g' T) (k : Nat) :
    found g S input k = found g' S input k := by
  unfold found
  rw [(chart_needed h k).1]

/-! ## Renaming -/

section
variable (f : Str → Str) (c : Char → Char)

def renItem (x : ChartItem) : ChartItem :=
  ⟨renTerm f c x.lhs, x.todo.map (renTerm f c), renNodes f c x.kids, x.start.map c, x.rest.map c⟩

theorem renNodes_append (a b : List ParseTreeNode) : renNodes f c (a ++ b) = renNodes f c a ++ renNodes f c b := by
  induction a with
  | nil => simp [renNodes]
  | cons x a ih => simp [renNodes, ih]

theorem renItem_extend (x : ChartItem) (k : ParseTreeNode) (r : Str) :
    renItem f c (x.extend k r) = (renItem f c x).extend (renNode f c k) (r.map c) := by
  simp [renItem, ChartItem.extend, renNodes_append, renNodes, List.map_tail]

theorem renItem_extendBy (x y : ChartItem) : renItem f c (x.extendBy y) = (renItem f c x).extendBy (renItem f c y) := by
  unfold ChartItem.extendBy
  rw [renItem_extend]
  simp [renNode, renItem]

variable {f c} (hf : Function.Injective f) (hc : Function.Injective c)
include hf hc

theorem listed_ren (g : Grammar) (T : Term) :
    listed (renGrammar f c g) (renTerm f c T) = (listed g T).map fun e => ⟨e.terms.map (renTerm f c)⟩ := by
  simp only [listed, renGrammar, List.filter_map, List.flatMap_map, List.map_flatMap]
  congr 1
  apply List.filter_congr
  intro p _
  simp [(renTerm_inj hf hc).eq_iff]

theorem begin_ren (g : Grammar) (T : Term) (s : Str) :
    Spec.begin (renGrammar f c g) (renTerm f c T) (s.map c) = (Spec.begin g T s).map (renItem f c) := by
  simp [Spec.begin, listed_ren hf hc, renItem, renNodes, Function.comp_def]

omit hf in
theorem map_inj : Function.Injective (List.map c) := List.map_injective_iff.mpr hc

theorem waits_ren (x : ChartItem) (n s : Str) : (renItem f c x).waits (f n) (s.map c) = x.waits n s := by
  unfold ChartItem.waits
  have h1 : ((renItem f c x).todo.head? == some (.nonterminal (f n))) = (x.todo.head? == some (.nonterminal n)) := by
    simp only [renItem, List.head?_map]
    cases x.todo.head? with
    | none => rfl
    | some T =>
      rw [Bool.eq_iff_iff]
      simp only [Option.map_some, beq_iff_eq, Option.some.injEq]
      exact (renTerm_inj hf hc).eq_iff (a := T) (b := .nonterminal n)
  have h2 : ((renItem f c x).rest == s.map c) = (x.rest == s) := by
    rw [Bool.eq_iff_iff]
    simp only [renItem, beq_iff_eq, (map_inj hc).eq_iff]
  rw [h1, h2]

theorem complete_ren (x : ChartItem) (T : Term) (s : Str) : (renItem f c x).complete (renTerm f c T) (s.map c) = x.complete T s := by
  unfold ChartItem.complete
  rw [Bool.eq_iff_iff]
  simp only [renItem, Bool.and_eq_true, List.isEmpty_iff, List.map_eq_nil_iff, beq_iff_eq, (map_inj hc).eq_iff,
    (renTerm_inj hf hc).eq_iff]

omit hf in
theorem isPrefixOf_ren (u s : Str) : (u.map c).isPrefixOf (s.map c) = u.isPrefixOf s := by
  rw [Bool.eq_iff_iff, List.isPrefixOf_iff_prefix, List.isPrefixOf_iff_prefix]
  exact List.prefix_map_iff_of_injective hc

theorem arising_ren (g : Grammar) (S : Term) (input : Str) (before : List ChartItem) (x : ChartItem) :
    arising (renGrammar f c g) (renTerm f c S) (input.map c) (before.map (renItem f c)) (renItem f c x) =
      (arising g S input before x).map (renItem f c) := by
  unfold arising
  have ht : (renItem f c x).todo = x.todo.map (renTerm f c) := rfl
  have hl : (renItem f c x).lhs = renTerm f c x.lhs := rfl
  have hr : (renItem f c x).rest = x.rest.map c := rfl
  have hst : (renItem f c x).start = x.start.map c := rfl
  rw [ht, hl, hr, hst]
  cases htd : x.todo with
  | nil =>
    simp only [List.map_nil]
    cases x.lhs with
    | terminal u => rfl
    | nonterminal n =>
      simp only [renTerm, List.filter_map, List.map_map]
      have : (fun w : ChartItem => w.waits (f n) (x.start.map c)) ∘ renItem f c = fun w => w.waits n x.start := by
        funext w; exact waits_ren hf hc w n x.start
      rw [this]
      apply List.map_congr_left
      intro w _
      exact (renItem_extendBy f c w x).symm
  | cons T ts =>
    cases T with
    | terminal u =>
      simp only [List.map_cons, renTerm, isPrefixOf_ren hc]
      split
      · simp only [List.map_cons, List.map_nil, renItem_extend, renNode, List.map_drop, List.length_map]
      · rfl
    | nonterminal n =>
      simp only [List.map_cons, List.map_append]
      have hw : (before.map (renItem f c)).any (fun w => w.waits (f n) (x.rest.map c)) = before.any fun w => w.waits n x.rest := by
        rw [List.any_map]
        congr 1
        funext w; exact waits_ren hf hc w n x.rest
      have hS : renTerm f c (.nonterminal n) = renTerm f c S ↔ Term.nonterminal n = S := (renTerm_inj hf hc).eq_iff
      have hi : x.rest.map c = input.map c ↔ x.rest = input := (map_inj hc).eq_iff
      have hb := begin_ren hf hc g (.nonterminal n) x.rest
      have hcm : (fun w : ChartItem => w.complete (renTerm f c (.nonterminal n)) (x.rest.map c)) ∘ renItem f c =
          fun w => w.complete (.nonterminal n) x.rest := by
        funext w; exact complete_ren hf hc w (.nonterminal n) x.rest
      have hnt : renTerm f c (.nonterminal n) = .nonterminal (f n) := rfl
      rw [hnt] at hS hb hcm
      rw [hnt]
      simp only
      rw [hb, List.filter_map, hcm, List.map_map, List.map_map]
      congr 1
      · by_cases hcond : (Term.nonterminal n = S ∧ x.rest = input) ∨ (before.any fun w => w.waits n x.rest) = true
        · rw [if_pos hcond, if_pos (by rw [hw, hS, hi]; exact hcond)]; rfl
        · rw [if_neg hcond, if_neg (by rw [hw, hS, hi]; exact hcond)]
      · apply List.map_congr_left
        intro w _
        exact (renItem_extendBy f c x w).symm

theorem chart_ren (g : Grammar) (S : Term) (input : Str) (h : Nat) :
    chart (renGrammar f c g) (renTerm f c S) (input.map c) h = (chart g S input h).map (renItem f c) := by
  induction h with
  | zero => exact begin_ren hf hc g S input
  | succ h ih =>
    rw [chart, chart, ih, List.getElem?_map]
    cases (chart g S input h)[h]? with
    | none => rfl
    | some x =>
      simp only [Option.map_some, List.map_append, ← List.map_take, arising_ren hf hc]

theorem found_ren (g : Grammar) (S : Term) (input : Str) (h : Nat) :
    found (renGrammar f c g) (renTerm f c S) (input.map c) h = (found g S input h).map (renTree f c) := by
  unfold found
  rw [chart_ren hf hc, ← List.map_take, List.filter_map, List.map_map, List.map_map]
  have : (fun x : ChartItem => x.complete (renTerm f c S) (input.map c) && x.rest.isEmpty) ∘ renItem f c =
      fun x => x.complete S input && x.rest.isEmpty := by
    funext x
    simp only [Function.comp, complete_ren hf hc]
    congr 1
    rw [Bool.eq_iff_iff]
    simp [renItem]
  rw [this]
  rfl
end

end Bnf
