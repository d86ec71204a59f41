import Verif.Spec.TreeChance
import Verif.Proofs.Chance
import Mathlib.Tactic.Ring
import Mathlib.Tactic.FieldSimp
import Mathlib.Algebra.BigOperators.Group.Finset.Basic

/-! The probability of a sentence is the sum of the probabilities of its trees. -/

set_option autoImplicit false

namespace Bnf
open Spec

/-- Forests with probabilities. -/
abbrev ForestDist := List (List ParseTreeNode × ℚ)

/-- As `distTerms`, with trees. -/
def forestDist (T : Str → ForestDist) : List Term → ForestDist
  | [] => [([], 1)]
  | .terminal u :: ts => (forestDist T ts).map fun o => (.terminal u :: o.1, o.2)
  | .nonterminal x :: ts => (T x).flatMap fun o => (forestDist T ts).map fun o' => (.nonterminal (.nonterminal x) o.1 :: o'.1, o.2 * o'.2)

/-- As `dist`, with trees (the children of the root). -/
def treeDist (g : Grammar) (alts : Nat → Production → List Expression) : Nat → Nat → Str → ForestDist
  | 0, _, _ => []
  | n + 1, d, x =>
    match firstOf g x with
    | none => []
    | some p => if Barren p then [] else
      (alts d p).flatMap fun e => (forestDist (treeDist g alts n (d + 1)) e.terms).map fun o => (o.1, o.2 / (alts d p).length)

/-- Forgetting the trees. -/
def spelled (D : ForestDist) : Dist := D.map fun o => (Spec.yield o.1, o.2)

theorem forestDist_spelled {T : Str → ForestDist} {D : Str → Dist} (ts : List Term) (h : ∀ x, Term.nonterminal x ∈ ts → D x = spelled (T x)) :
    distTerms D ts = spelled (forestDist T ts) := by
  induction ts with
  | nil => simp [distTerms, forestDist, spelled, Spec.yield]
  | cons t ts ih =>
    have ih := ih fun x hx => h x (List.mem_cons_of_mem _ hx)
    cases t with
    | terminal u =>
      simp only [distTerms, forestDist, ih, spelled, List.map_map]
      refine List.map_congr_left fun o _ => ?_
      simp [Spec.yield, nodeYield]
    | nonterminal x =>
      simp only [distTerms, forestDist, ih, spelled, h x List.mem_cons_self, List.flatMap_map, List.map_flatMap, List.map_map]
      congr 1

theorem firstOf_of_declared {g : Grammar} {x : Str} (h : ∃ q ∈ g.productions, q.lhs = .nonterminal x) : ∃ p, firstOf g x = some p := by
  obtain ⟨q, hq, hx⟩ := h
  cases hf : firstOf g x with
  | some p => exact ⟨p, rfl⟩
  | none =>
    have := List.find?_eq_none.mp hf q hq
    simp [hx] at this

/-- Only alternatives of the production are offered. -/
def FromRhs (alts : Nat → Production → List Expression) : Prop := ∀ d p e, e ∈ alts d p → e ∈ p.rhs

theorem treeDist_spelled {g : Grammar} {alts : Nat → Production → List Expression} (hd : AllDeclared g) (ha : FromRhs alts) (n d : Nat) (x : Str)
    (hx : ∃ q ∈ g.productions, q.lhs = .nonterminal x) : dist g alts n d x = spelled (treeDist g alts n d x) := by
  induction n generalizing d x with
  | zero => rfl
  | succ n ih =>
    obtain ⟨p, hp⟩ := firstOf_of_declared hx
    simp only [dist, treeDist, hp]
    by_cases hb : Barren p
    · simp [hb, spelled]
    · simp only [hb, if_false, spelled, List.map_flatMap, List.map_map]
      refine List.flatMap_congr fun e he => ?_
      rw [forestDist_spelled (T := treeDist g alts n (d + 1)) e.terms fun y hy => ih (d + 1) y (hd p (firstOf_mem hp) e (ha d p e he) y hy)]
      simp [spelled]

open scoped Classical in
/-- The probability of one outcome. -/
noncomputable def massAt {α : Type} (D : List (α × ℚ)) (a : α) : ℚ := (D.map fun o => if o.1 = a then o.2 else 0).sum

theorem massAt_nil {α : Type} (a : α) : massAt [] a = 0 := rfl
theorem massAt_append {α : Type} (D E : List (α × ℚ)) (a : α) : massAt (D ++ E) a = massAt D a + massAt E a := by simp [massAt]
theorem massAt_cons {α : Type} (o : α × ℚ) (D : List (α × ℚ)) (a : α) [Decidable (o.1 = a)] : massAt (o :: D) a = (if o.1 = a then o.2 else 0) + massAt D a := by
  simp [massAt]

theorem massAt_map_inj {α β : Type} {f : α → β} (hf : Function.Injective f) (c : ℚ) (D : List (α × ℚ)) (a : α) :
    massAt (D.map fun o => (f o.1, c * o.2)) (f a) = c * massAt D a := by
  classical
  induction D with
  | nil => simp [massAt_nil]
  | cons o D ih =>
    rw [List.map_cons, massAt_cons, massAt_cons, ih]
    by_cases h : o.1 = a
    · simp [h]; ring
    · simp [h, hf.ne h]

theorem massAt_zero {α : Type} {D : List (α × ℚ)} {a : α} (h : ∀ o ∈ D, o.1 ≠ a) : massAt D a = 0 := by
  classical
  induction D with
  | nil => rfl
  | cons o D ih =>
    rw [massAt_cons, ih fun o' ho' => h o' (List.mem_cons_of_mem _ ho'), if_neg (h o List.mem_cons_self), add_zero]

/-- The product of the probabilities of the children. -/
noncomputable def kidsMass (T : Str → ForestDist) : List ParseTreeNode → ℚ
  | [] => 1
  | .terminal _ :: ns => kidsMass T ns
  | .nonterminal (.terminal _) _ :: _ => 0
  | .nonterminal (.nonterminal x) k :: ns => massAt (T x) k * kidsMass T ns

theorem forestDist_labels {T : Str → ForestDist} {ts : List Term} {o : List ParseTreeNode × ℚ} (h : o ∈ forestDist T ts) : o.1.map rootTerm = ts := by
  induction ts generalizing o with
  | nil =>
    simp only [forestDist, List.mem_singleton] at h
    subst h; rfl
  | cons t ts ih =>
    cases t with
    | terminal u =>
      simp only [forestDist, List.mem_map] at h
      obtain ⟨o', h1, rfl⟩ := h
      simp [rootTerm, ih h1]
    | nonterminal x =>
      simp only [forestDist, List.mem_flatMap, List.mem_map] at h
      obtain ⟨o', _, o'', h2, rfl⟩ := h
      simp [rootTerm, ih h2]

theorem massAt_pairs {x : Str} (D E : ForestDist) (k : List ParseTreeNode) (ns : List ParseTreeNode) :
    massAt (D.flatMap fun o => E.map fun o' => (ParseTreeNode.nonterminal (.nonterminal x) o.1 :: o'.1, o.2 * o'.2)) (.nonterminal (.nonterminal x) k :: ns) =
      massAt D k * massAt E ns := by
  classical
  induction D with
  | nil => simp [massAt_nil]
  | cons o D ih =>
    rw [List.flatMap_cons, massAt_append, ih, massAt_cons]
    by_cases h : o.1 = k
    · rw [if_pos h, h, massAt_map_inj (f := fun l => ParseTreeNode.nonterminal (.nonterminal x) k :: l) (fun a b hab => by simpa using hab)]
      ring
    · rw [if_neg h, massAt_zero, zero_add, zero_add]
      intro o' ho' he
      obtain ⟨_, _, rfl⟩ := List.mem_map.mp ho'
      simp only [List.cons.injEq, ParseTreeNode.nonterminal.injEq, true_and] at he
      exact h he.1

theorem forestDist_mass (T : Str → ForestDist) (ts : List Term) (ns : List ParseTreeNode) :
    massAt (forestDist T ts) ns = if ns.map rootTerm = ts then kidsMass T ns else 0 := by
  classical
  by_cases hl : ns.map rootTerm = ts
  · rw [if_pos hl]
    induction ts generalizing ns with
    | nil =>
      obtain rfl := List.map_eq_nil_iff.mp hl
      simp [forestDist, massAt, kidsMass]
    | cons t ts ih =>
      obtain ⟨n, ns, rfl, h1, h2⟩ := List.map_eq_cons_iff.mp hl
      cases n with
      | terminal u =>
        simp only [rootTerm] at h1
        subst h1
        simp only [forestDist, kidsMass]
        have := massAt_map_inj (f := fun l => ParseTreeNode.terminal u :: l) (fun a b hab => by simpa using hab) 1 (forestDist T ts) ns
        simp only [one_mul] at this
        rw [this, ih ns h2]
      | nonterminal l k =>
        simp only [rootTerm] at h1
        subst h1
        cases l with
        | terminal u =>
          simp only [forestDist, kidsMass]
          refine massAt_zero fun o ho he => ?_
          obtain ⟨_, _, rfl⟩ := List.mem_map.mp ho
          simp at he
        | nonterminal x =>
          simp only [forestDist, kidsMass]
          rw [massAt_pairs, ih ns h2]
  · rw [if_neg hl]
    exact massAt_zero fun o ho he => hl (by rw [← he]; exact forestDist_labels ho)

theorem massAt_alternatives (T : Str → ForestDist) (c : ℚ) (alts : List Expression) (k : List ParseTreeNode) :
    massAt (alts.flatMap fun e => (forestDist T e.terms).map fun o => (o.1, o.2 / c)) k = alts.count ⟨k.map rootTerm⟩ / c * kidsMass T k := by
  induction alts with
  | nil => simp [massAt_nil]
  | cons e es ih =>
    have h1 : (forestDist T e.terms).map (fun o => (o.1, o.2 / c)) = (forestDist T e.terms).map fun o => (id o.1, c⁻¹ * o.2) := by
      refine List.map_congr_left fun o _ => ?_
      simp only [id]; congr 1; rw [div_eq_mul_inv]; ring
    rw [List.flatMap_cons, massAt_append, ih, h1]
    have h2 := massAt_map_inj (f := (id : List ParseTreeNode → List ParseTreeNode)) Function.injective_id c⁻¹ (forestDist T e.terms) k
    simp only [id] at h2 ⊢
    rw [h2, forestDist_mass, List.count_cons]
    by_cases h : k.map rootTerm = e.terms
    · have : (e == (⟨k.map rootTerm⟩ : Expression)) = true := by rw [beq_iff_eq, h]
      rw [if_pos h, if_pos this]
      push_cast
      rw [div_eq_mul_inv, div_eq_mul_inv]; ring
    · have : ¬ (e == (⟨k.map rootTerm⟩ : Expression)) = true := by rw [beq_iff_eq]; rintro rfl; exact h rfl
      rw [if_neg h, if_neg this]
      simp

mutual
theorem kidsMass_eq {g : Grammar} {alts : Nat → Production → List Expression} {n d : Nat}
    (h : ∀ x k, massAt (treeDist g alts n d x) k = if kidsNesting k + 1 ≤ n then nodeChance g alts d (.nonterminal (.nonterminal x) k) else 0) :
    (ns : List ParseTreeNode) → kidsMass (treeDist g alts n d) ns = if kidsNesting ns ≤ n then kidsChance g alts d ns else 0
  | [] => by simp [kidsMass, kidsNesting, kidsChance]
  | .terminal u :: ns => by
    rw [kidsMass, kidsMass_eq h ns]
    simp [kidsNesting, nodeNesting, kidsChance, nodeChance]
  | .nonterminal (.terminal u) k :: ns => by
    simp [kidsMass, kidsChance, nodeChance, share]
  | .nonterminal (.nonterminal x) k :: ns => by
    rw [kidsMass, kidsMass_eq h ns, h x k]
    simp only [kidsNesting, nodeNesting, kidsChance]
    by_cases h1 : kidsNesting k + 1 ≤ n
    · by_cases h2 : kidsNesting ns ≤ n
      · simp [h1, h2]
      · simp [h1, h2]
    · simp [h1]
end

/-- The probability of one tree. -/
theorem treeDist_mass (g : Grammar) (alts : Nat → Production → List Expression) (n d : Nat) (x : Str) (k : List ParseTreeNode) :
    massAt (treeDist g alts n d x) k = if kidsNesting k + 1 ≤ n then nodeChance g alts d (.nonterminal (.nonterminal x) k) else 0 := by
  induction n generalizing d x k with
  | zero => simp [treeDist, massAt_nil]
  | succ n ih =>
    have hk := kidsMass_eq (ih (d + 1)) k
    simp only [treeDist, nodeChance, share]
    cases hf : firstOf g x with
    | none => simp [massAt_nil]
    | some p =>
      simp only
      by_cases hb : Barren p
      · simp [hb, massAt_nil]
      · simp only [hb, if_false]
        rw [massAt_alternatives, hk]
        by_cases h2 : kidsNesting k ≤ n
        · rw [if_pos h2, if_pos (by omega)]
        · rw [if_neg h2, if_neg (by omega), mul_zero]

theorem forestDist_tree {g : Grammar} {T : Str → ForestDist} (ts : List Term)
    (h : ∀ x, Term.nonterminal x ∈ ts → ∀ o ∈ T x, ∃ e, HasAlt g (.nonterminal x) e ∧ IsForest g e.terms o.1) :
    ∀ o ∈ forestDist T ts, IsForest g ts o.1 := by
  induction ts with
  | nil =>
    intro o ho
    simp only [forestDist, List.mem_singleton] at ho
    subst ho; exact .nil
  | cons t ts ih =>
    have ih := ih fun x hx => h x (List.mem_cons_of_mem _ hx)
    intro o ho
    cases t with
    | terminal u =>
      simp only [forestDist, List.mem_map] at ho
      obtain ⟨o', h1, rfl⟩ := ho
      exact .terminal (ih o' h1)
    | nonterminal x =>
      simp only [forestDist, List.mem_flatMap, List.mem_map] at ho
      obtain ⟨o', h1, o'', h2, rfl⟩ := ho
      obtain ⟨e, h3, h4⟩ := h x List.mem_cons_self o' h1
      exact .nonterminal h3 h4 (ih o'' h2)

theorem firstOf_lhs {g : Grammar} {x : Str} {p : Production} (h : firstOf g x = some p) : p.lhs = .nonterminal x := by
  have := List.find?_some h
  simpa using this

/-- The outcomes are derivation trees. -/
theorem treeDist_tree {g : Grammar} {alts : Nat → Production → List Expression} (ha : FromRhs alts) (n d : Nat) (x : Str) :
    ∀ o ∈ treeDist g alts n d x, ∃ e, HasAlt g (.nonterminal x) e ∧ IsForest g e.terms o.1 := by
  induction n generalizing d x with
  | zero => simp [treeDist]
  | succ n ih =>
    intro o ho
    simp only [treeDist] at ho
    cases hf : firstOf g x with
    | none => simp [hf] at ho
    | some p =>
      simp only [hf] at ho
      by_cases hb : Barren p
      · simp [hb] at ho
      · simp only [hb, if_false, List.mem_flatMap, List.mem_map] at ho
        obtain ⟨e, he, o', ho', rfl⟩ := ho
        exact ⟨e, ⟨p, firstOf_mem hf, firstOf_lhs hf, ha d p e he⟩, forestDist_tree e.terms (fun y _ => ih (d + 1) y) o' ho'⟩

/-- Regrouping a sum by outcomes. -/
theorem sum_regroup {α : Type} (D : List (α × ℚ)) (P : α → Prop) [DecidablePred P] (L : List α) (hL : L.Nodup) (h : ∀ o ∈ D, P o.1 → o.1 ∈ L)
    (hP : ∀ a ∈ L, P a) : (D.map fun o => if P o.1 then o.2 else 0).sum = (L.map (massAt D)).sum := by
  classical
  induction D with
  | nil =>
    have : L.map (massAt ([] : List (α × ℚ))) = L.map fun _ => 0 := List.map_congr_left fun a _ => massAt_nil a
    rw [this]; simp
  | cons o D ih =>
    have h1 : L.map (massAt (o :: D)) = L.map fun a => (if o.1 = a then o.2 else 0) + massAt D a := List.map_congr_left fun a _ => massAt_cons o D a
    rw [List.map_cons, List.sum_cons, ih fun o' ho' => h o' (List.mem_cons_of_mem _ ho'), h1, List.sum_map_add]
    congr 1
    by_cases hp : P o.1
    · rw [if_pos hp]
      have hm := h o List.mem_cons_self hp
      clear h1 ih h hP hp
      induction L with
      | nil => simp at hm
      | cons a L ih =>
        rw [List.nodup_cons] at hL
        rw [List.map_cons, List.sum_cons]
        by_cases hoa : o.1 = a
        · rw [if_pos hoa]
          have : L.map (fun a => if o.1 = a then o.2 else 0) = L.map fun _ => 0 := by
            refine List.map_congr_left fun b hb => ?_
            rw [if_neg]
            rintro rfl
            exact hL.1 (hoa ▸ hb)
          rw [this]; simp
        · rw [if_neg hoa, zero_add]
          exact ih hL.2 ((List.mem_cons.mp hm).resolve_left hoa)
    · rw [if_neg hp]
      have : L.map (fun a => if o.1 = a then o.2 else 0) = L.map fun _ => 0 := by
        refine List.map_congr_left fun b hb => ?_
        rw [if_neg]
        rintro rfl
        exact hp (hP _ hb)
      rw [this]; simp

/-- The probability of a sentence, from its trees. -/
theorem dist_trees {g : Grammar} {alts : Nat → Production → List Expression} (hd : AllDeclared g) (ha : FromRhs alts) (n : Nat) {x : Str}
    (hx : ∃ q ∈ g.productions, q.lhs = .nonterminal x) {w : Str} {L : List ParseTree} (hL : L.Nodup) (hm : ∀ t, t ∈ L ↔ IsParse g (.nonterminal x) w t) :
    (dist g alts n 0 x).mass (· == w) = (L.map fun t => if treeNesting t ≤ n then treeChance g alts t else 0).sum := by
  have hlhs : ∀ t ∈ L, t.lhs = .nonterminal x := fun t ht => ((hm t).mp ht).root
  rw [treeDist_spelled hd ha n 0 x hx]
  unfold Dist.mass spelled
  rw [List.map_map]
  have h1 := sum_regroup (treeDist g alts n 0 x) (fun k => Spec.yield k = w) (L.map ParseTree.rhs)
    (by
      refine (List.nodup_map_iff_inj_on hL).mpr fun t ht t' ht' he => ?_
      have h1 := hlhs t ht
      have h2 := hlhs t' ht'
      cases t; cases t'
      simp only at h1 h2 he
      rw [h1, h2, he])
    (by
      intro o ho hp
      obtain ⟨e, he, hf⟩ := treeDist_tree ha n 0 x o ho
      exact List.mem_map.mpr ⟨⟨.nonterminal x, o.1⟩, (hm _).mpr ⟨rfl, ⟨e, he, hf⟩, hp⟩, rfl⟩)
    (by
      intro k hk
      obtain ⟨t, ht, rfl⟩ := List.mem_map.mp hk
      exact ((hm t).mp ht).spells)
  rw [List.map_map] at h1
  have h2 : (treeDist g alts n 0 x).map ((fun o : Str × ℚ => if (o.1 == w) = true then o.2 else 0) ∘ fun o => (Spec.yield o.1, o.2)) =
      (treeDist g alts n 0 x).map fun o => if Spec.yield o.1 = w then o.2 else 0 := by
    refine List.map_congr_left fun o _ => ?_
    simp
  rw [h2, h1]
  congr 1
  refine List.map_congr_left fun t ht => ?_
  simp only [Function.comp, treeDist_mass, treeNesting, nodeNesting, treeChance, hlhs t ht]

theorem sum_once {g : Grammar} (hn : (g.productions.map (·.lhs)).Nodup) {p : Production} (hp : p ∈ g.productions) (f : Production → Nat) :
    (g.productions.map fun q => if q.lhs = p.lhs then f q else 0).sum = f p := by
  obtain ⟨ps⟩ := g
  simp only at hn hp ⊢
  induction ps with
  | nil => simp at hp
  | cons q ps ih =>
    rw [List.map_cons, List.nodup_cons] at hn
    rw [List.map_cons, List.sum_cons]
    by_cases hq : q = p
    · subst hq
      have : ps.map (fun r => if r.lhs = q.lhs then f r else 0) = ps.map fun _ => 0 := by
        refine List.map_congr_left fun r hr => ?_
        rw [if_neg]
        intro he
        exact hn.1 (he ▸ List.mem_map_of_mem hr)
      rw [this]; simp
    · have hp' := (List.mem_cons.mp hp).resolve_left (fun h => hq h.symm)
      rw [if_neg, ih hn.2 hp', zero_add]
      intro he
      exact hn.1 (he ▸ List.mem_map_of_mem hp')

theorem share_uniform {g : Grammar} (hg : Tidy g) (d : Nat) (l : Term) (ts : List Term) :
    share g uniformAlts d l ts = timesListed g l ⟨ts⟩ * (1 / choices g l) := by
  have hzero : (∀ p ∈ g.productions, p.lhs ≠ l) → timesListed g l ⟨ts⟩ = 0 := by
    intro h
    have : (g.productions.map fun p => if p.lhs = l then p.rhs.count (⟨ts⟩ : Expression) else 0) = g.productions.map fun _ => 0 :=
      List.map_congr_left fun p hp => if_neg (h p hp)
    rw [timesListed, this]; simp
  cases l with
  | terminal u =>
    rw [hzero]
    · simp [share]
    · intro p hp he
      obtain ⟨x, hx⟩ := hg.names p hp
      rw [hx] at he; cases he
  | nonterminal x =>
    simp only [share]
    cases hf : firstOf g x with
    | none =>
      rw [hzero]
      · simp
      · intro p hp he
        have := List.find?_eq_none.mp hf p hp
        simp [he] at this
    | some p =>
      have hp := firstOf_mem hf
      have hl := firstOf_lhs hf
      simp only [if_neg (hg.choice p hp)]
      rw [timesListed, choices, ← hl, sum_once hg.once hp (fun q => q.rhs.count ⟨ts⟩), sum_once hg.once hp (fun q => q.rhs.length)]
      simp [uniformAlts, div_eq_mul_inv]

mutual
theorem nodeChance_uniform {g : Grammar} (hg : Tidy g) (d : Nat) : (n : ParseTreeNode) → nodeChance g uniformAlts d n = nodeCopies g n * nodeFair g n
  | .terminal _ => by simp [nodeChance, nodeCopies, nodeFair]
  | .nonterminal l kids => by
    simp only [nodeChance, nodeCopies, nodeFair, share_uniform hg, kidsChance_uniform hg (d + 1) kids]
    push_cast
    ring
theorem kidsChance_uniform {g : Grammar} (hg : Tidy g) (d : Nat) : (ns : List ParseTreeNode) →
    kidsChance g uniformAlts d ns = forestCopies g ns * kidsFair g ns
  | [] => by simp [kidsChance, forestCopies, kidsFair]
  | n :: ns => by
    simp only [kidsChance, forestCopies, kidsFair, nodeChance_uniform hg d n, kidsChance_uniform hg d ns]
    push_cast
    ring
end

theorem treeChance_uniform {g : Grammar} (hg : Tidy g) (t : ParseTree) : treeChance g uniformAlts t = copies g t * treeFair g t := by
  rw [treeChance, nodeChance_uniform hg, copies, nodeCopies, treeFair]

theorem share_nonneg (g : Grammar) (alts : Nat → Production → List Expression) (d : Nat) (l : Term) (ts : List Term) : 0 ≤ share g alts d l ts := by
  cases l with
  | terminal u => simp [share]
  | nonterminal x =>
    simp only [share]
    cases firstOf g x with
    | none => simp
    | some p =>
      simp only
      split
      · rfl
      · exact div_nonneg (Nat.cast_nonneg _) (Nat.cast_nonneg _)

mutual
theorem nodeChance_nonneg (g : Grammar) (alts : Nat → Production → List Expression) (d : Nat) : (n : ParseTreeNode) → 0 ≤ nodeChance g alts d n
  | .terminal _ => by simp [nodeChance]
  | .nonterminal l kids => by
    simp only [nodeChance]
    exact mul_nonneg (share_nonneg g alts d l _) (kidsChance_nonneg g alts (d + 1) kids)
theorem kidsChance_nonneg (g : Grammar) (alts : Nat → Production → List Expression) (d : Nat) : (ns : List ParseTreeNode) → 0 ≤ kidsChance g alts d ns
  | [] => by simp [kidsChance]
  | n :: ns => by
    simp only [kidsChance]
    exact mul_nonneg (nodeChance_nonneg g alts d n) (kidsChance_nonneg g alts d ns)
end

/-- A lower bound from some of the trees. -/
theorem dist_trees_ge {g : Grammar} {alts : Nat → Production → List Expression} (hd : AllDeclared g) (ha : FromRhs alts) (n : Nat) {x : Str}
    (hx : ∃ q ∈ g.productions, q.lhs = .nonterminal x) {w : Str} {L : List ParseTree} (hL : L.Nodup) (hm : ∀ t ∈ L, IsParse g (.nonterminal x) w t) :
    (L.map fun t => if treeNesting t ≤ n then treeChance g alts t else 0).sum ≤ (dist g alts n 0 x).mass (· == w) := by
  classical
  have hlhs : ∀ t ∈ L, t.lhs = .nonterminal x := fun t ht => (hm t ht).root
  rw [treeDist_spelled hd ha n 0 x hx]
  unfold Dist.mass spelled
  rw [List.map_map]
  have hnod : (L.map ParseTree.rhs).Nodup := by
    refine (List.nodup_map_iff_inj_on hL).mpr fun t ht t' ht' he => ?_
    have h1 := hlhs t ht
    have h2 := hlhs t' ht'
    cases t; cases t'
    simp only at h1 h2 he
    rw [h1, h2, he]
  have h1 := sum_regroup (treeDist g alts n 0 x) (fun k => Spec.yield k = w)
    (L.map ParseTree.rhs ++ (((treeDist g alts n 0 x).map (·.1)).filter fun k => Spec.yield k = w ∧ k ∉ L.map ParseTree.rhs).dedup)
    (by
      refine List.Nodup.append hnod (List.nodup_dedup _) fun k h1 h2 => ?_
      rw [List.mem_dedup, List.mem_filter, decide_eq_true_eq] at h2
      exact h2.2.2 h1)
    (by
      intro o ho hp
      by_cases hk : o.1 ∈ L.map ParseTree.rhs
      · exact List.mem_append_left _ hk
      · refine List.mem_append_right _ (List.mem_dedup.mpr (List.mem_filter.mpr ⟨List.mem_map_of_mem ho, ?_⟩))
        rw [decide_eq_true_eq]
        exact ⟨hp, hk⟩)
    (by
      intro k hk
      rcases List.mem_append.mp hk with hk | hk
      · obtain ⟨t, ht, rfl⟩ := List.mem_map.mp hk
        exact (hm t ht).spells
      · rw [List.mem_dedup, List.mem_filter, decide_eq_true_eq] at hk
        exact hk.2.1)
  have h2 : (treeDist g alts n 0 x).map ((fun o : Str × ℚ => if (o.1 == w) = true then o.2 else 0) ∘ fun o => (Spec.yield o.1, o.2)) =
      (treeDist g alts n 0 x).map fun o => if Spec.yield o.1 = w then o.2 else 0 := by
    refine List.map_congr_left fun o _ => ?_
    simp
  have h3 : (L.map ParseTree.rhs).map (massAt (treeDist g alts n 0 x)) = L.map fun t => if treeNesting t ≤ n then treeChance g alts t else 0 := by
    rw [List.map_map]
    refine List.map_congr_left fun t ht => ?_
    simp only [Function.comp, treeDist_mass, treeNesting, nodeNesting, treeChance, hlhs t ht]
  rw [h2, h1, List.map_append, List.sum_append, h3]
  refine le_add_of_nonneg_right (List.sum_nonneg fun q hq => ?_)
  obtain ⟨k, _, rfl⟩ := List.mem_map.mp hq
  rw [treeDist_mass]
  split
  · exact nodeChance_nonneg _ _ _ _
  · rfl

theorem uniformAlts_from : FromRhs uniformAlts := fun _ _ _ h => h

theorem boundedAlts_from (m : Nat) : FromRhs (boundedAlts m) := by
  intro d p e h
  simp only [boundedAlts] at h
  split at h
  · exact (List.mem_filter.mp h).1
  · exact h

theorem weightedAlts_from (a b : Nat) : FromRhs (weightedAlts a b) := by
  intro d p e h
  simp only [weightedAlts] at h
  split at h
  · exact h
  · obtain ⟨e', h1, h2⟩ := List.mem_flatMap.mp h
    rw [List.eq_of_mem_replicate h2]
    exact h1

end Bnf
