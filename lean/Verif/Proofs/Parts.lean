import Verif.Spec.Parts

/-! Parts of derivation trees. -/

set_option autoImplicit false

namespace Bnf
open Spec

theorem nodeIn_isTree {g : Grammar} {l kids} {ns} (h : NodeIn (.nonterminal l kids) ns) :
    ∀ {ts}, IsForest g ts ns → IsTree g ⟨l, kids⟩ := by
  induction h with
  | here =>
    intro ts hf
    cases hf with
    | nonterminal ha hk _ => exact ⟨_, ha, hk⟩
  | there _ ih =>
    intro ts hf
    cases hf with
    | terminal h => exact ih h
    | nonterminal _ _ h => exact ih h
  | inside _ ih =>
    intro ts hf
    cases hf with
    | nonterminal _ hk _ => exact ih hk

theorem replaced_forest {g : Grammar} {l k k'} {ns ns'} (h : Replaced (.nonterminal l k) (.nonterminal l k') ns ns')
    (ht : IsTree g ⟨l, k'⟩) (hy : yield k' = yield k) :
    ∀ {ts}, IsForest g ts ns → IsForest g ts ns' ∧ yield ns' = yield ns := by
  induction h with
  | here =>
    intro ts hf
    cases hf with
    | nonterminal ha hk h =>
      obtain ⟨e, ha', hf'⟩ := ht
      exact ⟨.nonterminal ha' hf' h, by simp [yield, nodeYield, hy]⟩
  | there _ ih =>
    intro ts hf
    cases hf with
    | terminal h => exact ⟨.terminal (ih h).1, by simp [yield, (ih h).2]⟩
    | nonterminal ha hk h => exact ⟨.nonterminal ha hk (ih h).1, by simp [yield, (ih h).2]⟩
  | inside _ ih =>
    intro ts hf
    cases hf with
    | nonterminal ha hk h => exact ⟨.nonterminal ha (ih hk).1 h, by simp [yield, nodeYield, (ih hk).2]⟩

theorem forest_agree {g g' : Grammar} {S : Term} (h : ∀ l, Reachable g S l → ∀ e, HasAlt g l e ↔ HasAlt g' l e) {ts ns} :
    (IsForest g ts ns → (∀ t ∈ ts, Reachable g S t) → IsForest g' ts ns) ∧
    (IsForest g' ts ns → (∀ t ∈ ts, Reachable g S t) → IsForest g ts ns) := by
  constructor
  · intro hf
    induction hf with
    | nil => intro _; exact .nil
    | terminal _ ih => intro hr; exact .terminal (ih fun t ht => hr t (List.mem_cons_of_mem _ ht))
    | nonterminal ha hk hn ih1 ih2 =>
      intro hr
      have hl := hr _ (List.mem_cons_self ..)
      exact .nonterminal ((h _ hl _).mp ha) (ih1 fun t ht => .step hl ha ht) (ih2 fun t ht => hr t (List.mem_cons_of_mem _ ht))
  · intro hf
    induction hf with
    | nil => intro _; exact .nil
    | terminal _ ih => intro hr; exact .terminal (ih fun t ht => hr t (List.mem_cons_of_mem _ ht))
    | nonterminal ha hk hn ih1 ih2 =>
      intro hr
      have hl := hr _ (List.mem_cons_self ..)
      have ha' := (h _ hl _).mpr ha
      exact .nonterminal ha' (ih1 fun t ht => .step hl ha' ht) (ih2 fun t ht => hr t (List.mem_cons_of_mem _ ht))

theorem isParse_agree {g g' : Grammar} {S : Term} (h : ∀ l, Reachable g S l → ∀ e, HasAlt g l e ↔ HasAlt g' l e) {input t} :
    IsParse g S input t ↔ IsParse g' S input t := by
  constructor
  · rintro ⟨hr, ⟨e, ha, hf⟩, hy⟩
    rw [hr] at ha
    exact ⟨hr, ⟨e, hr ▸ (h _ .start e).mp ha, (forest_agree h).1 hf fun t ht => .step .start ha ht⟩, hy⟩
  · rintro ⟨hr, ⟨e, ha, hf⟩, hy⟩
    rw [hr] at ha
    have ha' := (h _ .start e).mpr ha
    exact ⟨hr, ⟨e, hr ▸ ha', (forest_agree h).2 hf fun t ht => .step .start ha' ht⟩, hy⟩

end Bnf
