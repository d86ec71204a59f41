import Verif.Proofs.Work
import Verif.Spec.Text
import Verif.Spec.Defined
import Mathlib.Computability.DFA
import Mathlib.Algebra.BigOperators.Group.Finset.Basic
import Mathlib.Algebra.BigOperators.Group.Finset.Piecewise
import Mathlib.Algebra.BigOperators.Ring.Finset
import Mathlib.Data.List.Nodup

/-! A left-recursive grammar for a finite automaton: one nonterminal for each state that can be reached, whose texts are those leading to it. -/

set_option autoImplicit false

namespace Bnf
open Spec

namespace Reg

variable {σ : Type} [Fintype σ] (M : DFA Char σ) (A : Finset Char)

def Over (w : Str) : Prop := ∀ c ∈ w, c ∈ A

/-- The state is reached by a word over the alphabet. -/
def Reached (q : σ) : Prop := ∃ w, Over A w ∧ M.eval w = q

open Classical in
noncomputable def states : Finset σ := Finset.univ.filter (Reached M A)

theorem mem_states {q} : q ∈ states M A ↔ Reached M A q := by simp [states]

open Classical in
noncomputable def name (q : σ) : Str := List.replicate ((states M A).toList.idxOf q + 1) 'n'

open Classical in
noncomputable def steps (q : σ) : Finset (σ × Char) := ((states M A) ×ˢ A).filter fun x => M.step x.1 x.2 = q

noncomputable def stepAlt (x : σ × Char) : Expression := ⟨[.nonterminal (name M A x.1), .terminal [x.2]]⟩

open Classical in
noncomputable def altsOf (q : σ) : List Expression :=
  (if q = M.start then [⟨[.terminal []]⟩] else []) ++ (steps M A q).toList.map (stepAlt M A)

open Classical in
noncomputable def finals : Finset σ := (states M A).filter (· ∈ M.accept)

noncomputable def startAlts : List Expression := (finals M A).toList.map fun q => ⟨[.nonterminal (name M A q)]⟩

noncomputable def gram : Grammar :=
  ⟨⟨.nonterminal ['s'], startAlts M A⟩ :: (states M A).toList.map fun q => ⟨.nonterminal (name M A q), altsOf M A q⟩⟩

variable {M A}

theorem name_inj {p q : σ} (hp : Reached M A p) (h : name M A p = name M A q) : p = q := by
  classical
  have h1 := congrArg List.length h
  simp only [name, List.length_replicate, Nat.add_right_cancel_iff] at h1
  exact (List.idxOf_inj (by simpa using (mem_states M A).mpr hp)).mp h1

theorem name_ne (q : σ) : name M A q ≠ ['s'] := by
  intro h
  have : 's' ∈ name M A q := by rw [h]; simp
  simp only [name, List.mem_replicate] at this
  exact absurd this.2 (by decide)

theorem name_ok (q : σ) : '>' ∉ name M A q := by
  simp only [name, List.mem_replicate, not_and]
  intro _; decide

theorem mem_altsOf {q : σ} {e} : e ∈ altsOf M A q ↔ (q = M.start ∧ e = ⟨[.terminal []]⟩) ∨
    ∃ p c, Reached M A p ∧ c ∈ A ∧ M.step p c = q ∧ e = ⟨[.nonterminal (name M A p), .terminal [c]]⟩ := by
  classical
  simp only [altsOf, List.mem_append, List.mem_map, Finset.mem_toList, steps, Finset.mem_filter, Finset.mem_product, mem_states,
    Prod.exists, stepAlt]
  refine or_congr ?_ ?_
  · split <;> simp_all
  · constructor
    · rintro ⟨p, c, ⟨⟨h1, h2⟩, h3⟩, rfl⟩; exact ⟨p, c, h1, h2, h3, rfl⟩
    · rintro ⟨p, c, h1, h2, h3, rfl⟩; exact ⟨p, c, ⟨⟨h1, h2⟩, h3⟩, rfl⟩

theorem mem_startAlts {e} : e ∈ startAlts M A ↔ ∃ q, Reached M A q ∧ q ∈ M.accept ∧ e = ⟨[.nonterminal (name M A q)]⟩ := by
  classical
  simp only [startAlts, List.mem_map, Finset.mem_toList, finals, Finset.mem_filter, mem_states]
  constructor
  · rintro ⟨q, ⟨h1, h2⟩, rfl⟩; exact ⟨q, h1, h2, rfl⟩
  · rintro ⟨q, h1, h2, rfl⟩; exact ⟨q, ⟨h1, h2⟩, rfl⟩

theorem hasAlt_start {e} : HasAlt (gram M A) (.nonterminal ['s']) e ↔ e ∈ startAlts M A := by
  constructor
  · rintro ⟨p, hp, hl, he⟩
    simp only [gram, List.mem_cons, List.mem_map] at hp
    rcases hp with rfl | ⟨B, hB, rfl⟩
    · exact he
    · simp only [Term.nonterminal.injEq] at hl
      exact absurd hl (name_ne B)
  · intro h
    exact ⟨⟨.nonterminal ['s'], startAlts M A⟩, by simp [gram], rfl, h⟩

theorem hasAlt_name {q : σ} (hq : Reached M A q) {e} : HasAlt (gram M A) (.nonterminal (name M A q)) e ↔ e ∈ altsOf M A q := by
  constructor
  · rintro ⟨p, hp, hl, he⟩
    simp only [gram, List.mem_cons, List.mem_map] at hp
    rcases hp with rfl | ⟨B, hB, rfl⟩
    · simp only [Term.nonterminal.injEq] at hl
      exact absurd hl.symm (name_ne q)
    · simp only [Term.nonterminal.injEq] at hl
      rw [← name_inj (by simpa [mem_states] using hB) hl]
      exact he
  · intro h
    refine ⟨⟨.nonterminal (name M A q), altsOf M A q⟩, ?_, rfl, h⟩
    simp only [gram, List.mem_cons, List.mem_map, Finset.mem_toList]
    exact .inr ⟨q, (mem_states M A).mpr hq, rfl⟩

/-- Every alternative belongs to the start or to a reached state. -/
theorem alt_cases {l e} (h : HasAlt (gram M A) l e) : (l = .nonterminal ['s'] ∧ e ∈ startAlts M A) ∨
    ∃ q, Reached M A q ∧ l = .nonterminal (name M A q) ∧ e ∈ altsOf M A q := by
  obtain ⟨p, hp, rfl, he⟩ := h
  simp only [gram, List.mem_cons, List.mem_map, Finset.mem_toList, mem_states] at hp
  rcases hp with rfl | ⟨q, hq, rfl⟩
  · exact .inl ⟨rfl, he⟩
  · exact .inr ⟨q, hq, rfl, he⟩

variable (M A) in
/-- The children of a state's node for a word, given backwards. -/
noncomputable def kids : Str → List ParseTreeNode
  | [] => [.terminal []]
  | c :: r => [.nonterminal (.nonterminal (name M A (M.eval r.reverse))) (kids r), .terminal [c]]

theorem kids_yield (r : Str) : yield (kids M A r) = r.reverse := by
  induction r with
  | nil => rfl
  | cons c r ih => simp [kids, yield, nodeYield, ih]

theorem reached_reverse {r : Str} (h : Over A r) : Reached M A (M.eval r.reverse) :=
  ⟨r.reverse, fun c hc => h c (by simpa using hc), rfl⟩

theorem kids_forest {r : Str} (h : Over A r) :
    ∃ e, HasAlt (gram M A) (.nonterminal (name M A (M.eval r.reverse))) e ∧ IsForest (gram M A) e.terms (kids M A r) := by
  induction r with
  | nil => exact ⟨⟨[.terminal []]⟩, (hasAlt_name (reached_reverse h)).mpr (mem_altsOf.mpr (.inl ⟨rfl, rfl⟩)), .terminal .nil⟩
  | cons c r ih =>
    have hr : Over A r := fun d hd => h d (List.mem_cons_of_mem _ hd)
    obtain ⟨e, h1, h2⟩ := ih hr
    refine ⟨_, (hasAlt_name (reached_reverse h)).mpr (mem_altsOf.mpr (.inr ⟨_, c, reached_reverse hr, h c List.mem_cons_self, ?_, rfl⟩)),
      .nonterminal h1 h2 (.terminal .nil)⟩
    simp [DFA.eval_append_singleton]

theorem forest_kids {ts ns} (h : IsForest (gram M A) ts ns) : ∀ q tl, Reached M A q → ts = .nonterminal (name M A q) :: tl →
    ∃ r ns', Over A r ∧ M.eval r.reverse = q ∧ ns = .nonterminal (.nonterminal (name M A q)) (kids M A r) :: ns' ∧
      IsForest (gram M A) tl ns' := by
  induction h with
  | nil => intro q tl _ h; simp at h
  | terminal _ _ => intro q tl _ h; simp at h
  | @nonterminal n e ks ts ns ha hk hf ih1 _ =>
    intro q tl hq h
    simp only [List.cons.injEq, Term.nonterminal.injEq] at h
    obtain ⟨rfl, rfl⟩ := h
    rcases mem_altsOf.mp ((hasAlt_name hq).mp ha) with ⟨rfl, rfl⟩ | ⟨p, c, hp, hc, rfl, rfl⟩
    · simp only at hk
      cases hk with
      | terminal h => cases h; exact ⟨[], ns, by simp [Over], rfl, rfl, hf⟩
    · obtain ⟨r, ns', h1, h2, rfl, h4⟩ := ih1 p _ hp rfl
      cases h4 with
      | terminal h =>
        cases h
        refine ⟨c :: r, ns, ?_, ?_, by rw [kids, h2], hf⟩
        · intro d hd
          rcases List.mem_cons.mp hd with rfl | hd
          · exact hc
          · exact h1 d hd
        · simp [DFA.eval_append_singleton, h2]

theorem tree_state {q ks e} (hq : Reached M A q) (ha : HasAlt (gram M A) (.nonterminal (name M A q)) e)
    (hk : IsForest (gram M A) e.terms ks) : ∃ r, Over A r ∧ M.eval r.reverse = q ∧ ks = kids M A r := by
  obtain ⟨r, ns', h1, h2, h3, _⟩ := forest_kids (.nonterminal ha hk .nil) q [] hq rfl
  simp only [List.cons.injEq, ParseTreeNode.nonterminal.injEq] at h3
  exact ⟨r, h1, h2, h3.1.2⟩

theorem tree_start {ks e} (ha : HasAlt (gram M A) (.nonterminal ['s']) e)
    (hk : IsForest (gram M A) e.terms ks) : ∃ r, Over A r ∧ M.eval r.reverse ∈ M.accept ∧
      ks = [.nonterminal (.nonterminal (name M A (M.eval r.reverse))) (kids M A r)] := by
  obtain ⟨q, h1, h2, rfl⟩ := mem_startAlts.mp (hasAlt_start.mp ha)
  obtain ⟨r, ns', h3, rfl, rfl, h5⟩ := forest_kids hk q [] h1 rfl
  cases h5
  exact ⟨r, h3, h2, rfl⟩

theorem gram_language (w : Str) : Derives (gram M A) (.nonterminal ['s']) w ↔ Over A w ∧ w ∈ M.accepts := by
  constructor
  · rintro ⟨t, h1, ⟨e, ha, hf⟩, rfl⟩
    rw [h1] at ha
    obtain ⟨r, h2, h3, h4⟩ := tree_start ha hf
    rw [h4]
    simp only [yield, nodeYield, kids_yield, List.append_nil]
    exact ⟨fun c hc => h2 c (by simpa using hc), h3⟩
  · rintro ⟨h1, h2⟩
    have h3 : Over A w.reverse := fun c hc => h1 c (by simpa using hc)
    obtain ⟨e, h4, h5⟩ := kids_forest (M := M) h3
    rw [List.reverse_reverse] at h4
    refine ⟨⟨.nonterminal ['s'], _⟩, rfl, ⟨_, hasAlt_start.mpr (mem_startAlts.mpr ⟨M.eval w, ⟨w, h1, rfl⟩, h2, rfl⟩),
      .nonterminal h4 h5 .nil⟩, ?_⟩
    simp [yield, nodeYield, kids_yield]

theorem gram_unambiguous : Unambiguous (gram M A) := by
  rintro T w ⟨l, ks⟩ ⟨l', ks'⟩ ⟨h1, ⟨e, ha, hf⟩, h3⟩ ⟨h1', ⟨e', ha', hf'⟩, h3'⟩
  simp only at h1 h1' ha ha' hf hf' h3 h3'
  subst h1 h1'
  simp only [ParseTree.mk.injEq, true_and]
  rcases alt_cases ha with ⟨rfl, _⟩ | ⟨q, hq, rfl, _⟩
  · obtain ⟨r, _, _, rfl⟩ := tree_start ha hf
    obtain ⟨r', _, _, rfl⟩ := tree_start ha' hf'
    simp only [yield, nodeYield, kids_yield, List.append_nil] at h3 h3'
    rw [← h3', List.reverse_inj] at h3
    rw [h3]
  · obtain ⟨r, _, _, rfl⟩ := tree_state hq ha hf
    obtain ⟨r', _, _, rfl⟩ := tree_state hq ha' hf'
    simp only [kids_yield] at h3 h3'
    rw [← h3', List.reverse_inj] at h3
    rw [h3]

/-- The alternatives of the grammar, by form. -/
theorem alt_forms {l e} (h : HasAlt (gram M A) l e) : e = ⟨[.terminal []]⟩ ∨
    (∃ q, Reached M A q ∧ e = ⟨[.nonterminal (name M A q)]⟩) ∨
    ∃ q c, Reached M A q ∧ e = ⟨[.nonterminal (name M A q), .terminal [c]]⟩ := by
  rcases alt_cases h with ⟨_, h⟩ | ⟨q, _, _, h⟩
  · obtain ⟨q, h1, _, rfl⟩ := mem_startAlts.mp h
    exact .inr (.inl ⟨q, h1, rfl⟩)
  · rcases mem_altsOf.mp h with ⟨_, rfl⟩ | ⟨p, c, hp, _, _, rfl⟩
    · exact .inl rfl
    · exact .inr (.inr ⟨p, c, hp, rfl⟩)

theorem uses {l e n} (h : HasAlt (gram M A) l e) (hn : Term.nonterminal n ∈ e.terms) : ∃ q, Reached M A q ∧ n = name M A q := by
  rcases alt_forms h with rfl | ⟨q, hq, rfl⟩ | ⟨q, c, hq, rfl⟩
  · simp at hn
  · exact ⟨q, hq, by simpa using hn⟩
  · exact ⟨q, hq, by simpa using hn⟩

theorem reached_derives {q : σ} (hq : Reached M A q) : ∃ w, Derives (gram M A) (.nonterminal (name M A q)) w := by
  obtain ⟨w, h1, rfl⟩ := hq
  have h3 : Over A w.reverse := fun c hc => h1 c (by simpa using hc)
  obtain ⟨e, h4, h5⟩ := kids_forest (M := M) h3
  rw [List.reverse_reverse] at h4
  exact ⟨_, ⟨_, _⟩, rfl, ⟨_, h4, h5⟩, rfl⟩

theorem gram_productive : Productive (gram M A) := by
  intro l e n h hn
  obtain ⟨q, hq, rfl⟩ := uses h hn
  exact reached_derives hq

theorem gram_defined (n : Str) (h : Referenced (gram M A) n) : Defined (gram M A) n := by
  obtain ⟨lhs, e, ha, hm⟩ := h
  obtain ⟨q, hq, rfl⟩ := uses ha hm
  obtain ⟨w, t, h1, ⟨e, h2, _⟩, _⟩ := reached_derives hq
  rw [h1] at h2
  exact ⟨e, h2⟩

theorem gram_expected {S input u T} (h : Expected (gram M A) S input u T) : u = [] := by
  induction h with
  | start => rfl
  | @step u l e pre n post ns r _ ha he hf _ ih =>
    have : pre = [] := by
      rcases alt_forms ha with rfl | ⟨q, hq, rfl⟩ | ⟨q, c, hq, rfl⟩
      all_goals
        cases pre with
        | nil => rfl
        | cons a pre => cases pre <;> simp at he
    subst this
    cases hf
    simpa [yield] using ih

theorem gram_nodup : (alternatives (gram M A)).Nodup := by
  classical
  have hn : ∀ (l : Term) (es : List Expression), es.Nodup → (es.map fun e => (l, e)).Nodup := fun l es h =>
    h.map_on fun a _ b _ h => by simpa using h
  simp only [alternatives, gram, List.flatMap_cons]
  rw [List.nodup_append]
  refine ⟨hn _ _ ?_, ?_, ?_⟩
  · refine List.Nodup.map_on ?_ (Finset.nodup_toList _)
    intro p hp q _ h
    simp only [Expression.mk.injEq, List.cons.injEq, Term.nonterminal.injEq, and_true] at h
    simp only [Finset.mem_toList, finals, Finset.mem_filter, mem_states] at hp
    exact name_inj hp.1 h
  · rw [List.nodup_flatMap]
    refine ⟨?_, ?_⟩
    · intro x hx
      simp only [List.mem_map, Finset.mem_toList, mem_states] at hx
      obtain ⟨q, hq, rfl⟩ := hx
      refine hn _ _ ?_
      simp only [altsOf]
      rw [List.nodup_append]
      refine ⟨by split <;> simp, ?_, ?_⟩
      · refine List.Nodup.map_on ?_ (Finset.nodup_toList _)
        rintro ⟨p, c⟩ hp ⟨p', c'⟩ _ h
        simp only [stepAlt, Expression.mk.injEq, List.cons.injEq, Term.nonterminal.injEq, Term.terminal.injEq, and_true] at h
        simp only [Finset.mem_toList, steps, Finset.mem_filter, Finset.mem_product, mem_states] at hp
        rw [name_inj hp.1.1 h.1, h.2]
      · intro a ha b hb
        split at ha
        · simp only [List.mem_cons, List.not_mem_nil, or_false] at ha
          subst ha
          simp only [List.mem_map] at hb
          obtain ⟨x, _, rfl⟩ := hb
          simp [stepAlt]
        · simp at ha
    · rw [List.pairwise_map]
      have h1 := Finset.nodup_toList (states M A)
      refine List.Pairwise.imp_of_mem ?_ h1
      intro p q hp hq hne x hx hx'
      simp only [List.mem_map] at hx hx'
      obtain ⟨_, _, rfl⟩ := hx
      obtain ⟨_, _, h⟩ := hx'
      simp only [Prod.mk.injEq, Term.nonterminal.injEq] at h
      simp only [Finset.mem_toList, mem_states] at hq
      exact hne (name_inj hq h.1).symm
  · intro a ha b hb h
    subst h
    simp only [List.mem_map, List.mem_flatMap] at ha hb
    obtain ⟨_, _, rfl⟩ := ha
    obtain ⟨_, ⟨q, _, rfl⟩, _, _, h⟩ := hb
    simp only [Prod.mk.injEq, Term.nonterminal.injEq] at h
    exact name_ne q h.1

theorem gram_places : places (gram M A) ≤ 3 * (Fintype.card σ * A.card) + 2 * Fintype.card σ + 2 := by
  classical
  have h1 : places (gram M A) = 2 * (finals M A).card +
      ∑ q ∈ states M A, ((if q = M.start then 2 else 0) + 3 * (steps M A q).card) := by
    simp only [places, alternatives, gram, List.flatMap_cons, List.map_append, List.sum_append, List.map_map]
    congr 1
    · simp only [startAlts, List.map_map]
      rw [show (((fun a : Term × Expression => a.2.terms.length + 1) ∘ fun e => (Term.nonterminal ['s'], e)) ∘
        fun q => (⟨[Term.nonterminal (name M A q)]⟩ : Expression)) = fun _ => 2 from rfl]
      simp [Nat.mul_comm]
    · rw [← Finset.sum_map_toList]
      generalize (states M A).toList = l
      induction l with
      | nil => rfl
      | cons q l ih =>
        simp only [List.map_cons, List.flatMap_cons, List.map_append, List.sum_append, List.sum_cons, ih, List.map_map]
        congr 1
        simp only [altsOf, List.map_append, List.sum_append, List.map_map]
        congr 1
        · split <;> rfl
        · rw [show (((fun a : Term × Expression => a.2.terms.length + 1) ∘ fun e => (Term.nonterminal (name M A q), e)) ∘
            stepAlt M A) = fun _ => 3 from rfl]
          simp [Nat.mul_comm]
  have h2 : (finals M A).card ≤ Fintype.card σ := Finset.card_le_univ _
  have h3 : ∑ q ∈ states M A, (steps M A q).card ≤ Fintype.card σ * A.card := by
    have h4 : ((states M A) ×ˢ A).card ≤ Fintype.card σ * A.card := by
      rw [Finset.card_product]
      exact Nat.mul_le_mul_right _ (Finset.card_le_univ _)
    refine le_trans ?_ h4
    have h5 := Finset.card_eq_sum_card_fiberwise (s := (states M A) ×ˢ A) (t := states M A) (f := fun x => M.step x.1 x.2) (by
      intro x hx
      simp only [Finset.coe_product, Set.mem_prod, Finset.mem_coe, mem_states] at hx ⊢
      obtain ⟨⟨w, h1, h2⟩, h3⟩ := hx
      refine ⟨w ++ [x.2], ?_, by rw [DFA.eval_append_singleton, h2]⟩
      intro c hc
      rcases List.mem_append.mp hc with hc | hc
      · exact h1 c hc
      · simp only [List.mem_cons, List.not_mem_nil, or_false] at hc; rw [hc]; exact h3)
    rw [h5]
    exact le_of_eq rfl
  have h4 : ∑ q ∈ states M A, (if q = M.start then 2 else 0) ≤ 2 := by
    rw [Finset.sum_ite_eq']
    split <;> simp
  rw [h1, Finset.sum_add_distrib, ← Finset.mul_sum]
  omega

theorem gram_printable (hne : ∃ w ∈ M.accepts, Over A w) : PrintableGrammar (gram M A) := by
  refine ⟨by simp [gram], fun p hp => ?_⟩
  have hx : ∀ e ∈ p.rhs, PrintableExpression e := by
    intro e he
    rcases alt_forms ⟨p, hp, rfl, he⟩ with rfl | ⟨q, hq, rfl⟩ | ⟨q, c, hq, rfl⟩
    · simp [PrintableExpression, Printable]
    · simpa [PrintableExpression, Printable] using name_ok q
    · refine ⟨by simp, fun t ht => ?_⟩
      simp only [List.mem_cons, List.not_mem_nil, or_false] at ht
      rcases ht with rfl | rfl
      · exact name_ok q
      · simp only [Printable]
        by_cases hc : c = '\''
        · left; subst hc; decide
        · right; simpa using fun h => hc h.symm
  simp only [gram, List.mem_cons, List.mem_map, Finset.mem_toList, mem_states] at hp
  rcases hp with rfl | ⟨q, hq, rfl⟩
  · refine ⟨⟨_, rfl, by decide⟩, ?_, hx⟩
    obtain ⟨w, h1, h2⟩ := hne
    exact List.ne_nil_of_mem (mem_startAlts.mpr ⟨M.eval w, ⟨w, h2, rfl⟩, h1, rfl⟩)
  · refine ⟨⟨_, rfl, name_ok q⟩, ?_, hx⟩
    obtain ⟨w, t, h1, ⟨e, h2, _⟩, _⟩ := reached_derives hq
    rw [h1] at h2
    exact List.ne_nil_of_mem ((hasAlt_name hq).mp h2)

end Reg

/-! ## The empty language: `<s> ::= <s> 'x'` -/

def gNone : Grammar := ⟨[⟨.nonterminal ['s'], [⟨[.nonterminal ['s'], .terminal ['x']]⟩]⟩]⟩

theorem gNone_alt {l e} (h : HasAlt gNone l e) : l = .nonterminal ['s'] ∧ e = ⟨[.nonterminal ['s'], .terminal ['x']]⟩ := by
  obtain ⟨p, hp, rfl, he⟩ := h
  simp only [gNone, List.mem_singleton] at hp
  subst hp
  simpa using he

theorem gNone_forest {ts ns} (h : IsForest gNone ts ns) : Term.nonterminal ['s'] ∉ ts := by
  induction h with
  | nil => simp
  | terminal _ ih => simpa using ih
  | @nonterminal n e kids ts ns ha _ _ ih1 ih2 =>
    obtain ⟨h, rfl⟩ := gNone_alt ha
    exact absurd List.mem_cons_self ih1

theorem gNone_derives {T w} : ¬ Derives gNone T w := by
  rintro ⟨t, _, ⟨e, ha, hf⟩, _⟩
  obtain ⟨_, rfl⟩ := gNone_alt ha
  exact gNone_forest hf (by simp)

theorem gNone_expected {input u T} (h : Expected gNone (.nonterminal ['s']) input u T) : u = [] ∧ T = .nonterminal ['s'] := by
  induction h with
  | start => exact ⟨rfl, rfl⟩
  | @step u l e pre n post ns r _ ha he hf _ ih =>
    obtain ⟨_, rfl⟩ := gNone_alt ha
    cases pre with
    | nil => cases hf; simp at he; simpa [yield, he.1] using ih.1
    | cons a pre =>
      simp only [List.cons_append, List.cons.injEq] at he
      exact absurd (he.1 ▸ List.mem_cons_self) (gNone_forest hf)

theorem gNone_viable {input x} (h : Viable gNone (.nonterminal ['s']) input x) :
    x = ⟨[], .nonterminal ['s'], ⟨[.nonterminal ['s'], .terminal ['x']]⟩, []⟩ := by
  obtain ⟨h1, h2, pre, post, r, h3, h4, _⟩ := h
  obtain ⟨sn, l, e, f⟩ := x
  simp only at h1 h2 h3 h4
  obtain ⟨rfl, rfl⟩ := gNone_alt h1
  obtain ⟨rfl, _⟩ := gNone_expected h2
  cases pre with
  | nil => cases h4; rfl
  | cons a pre =>
    simp only [List.cons_append, List.cons.injEq] at h3
    exact absurd (h3.1 ▸ List.mem_cons_self) (gNone_forest h4)

end Bnf
