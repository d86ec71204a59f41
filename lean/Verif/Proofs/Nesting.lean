import Mathlib.Data.Finset.Card
import Mathlib.Logic.Relation
import Verif.Spec.TreeChance
import Verif.Spec.Acyclic
import Verif.Spec.Calls
import Verif.Proofs.Generate
import Verif.Proofs.Iter

/-! # Proofs: how deep the calls nest -/

set_option autoImplicit false

namespace Bnf
open Spec

/-! ## Reading a tree -/

theorem kids_le {n : ParseTreeNode} {ns : List ParseTreeNode} (h : n ∈ ns) : nodeNesting n ≤ kidsNesting ns := by
  induction ns with
  | nil => cases h
  | cons m ns ih =>
    simp only [kidsNesting]
    rcases List.mem_cons.mp h with rfl | h
    · exact Nat.le_max_left _ _
    · exact Nat.le_trans (ih h) (Nat.le_max_right _ _)

theorem kids_le_iff {ns : List ParseTreeNode} {k : Nat} : kidsNesting ns ≤ k ↔ ∀ n ∈ ns, nodeNesting n ≤ k := by
  constructor
  · intro h n hn; exact Nat.le_trans (kids_le hn) h
  · intro h
    induction ns with
    | nil => exact Nat.zero_le _
    | cons m ns ih =>
      simp only [kidsNesting]
      exact Nat.max_le.mpr ⟨h m List.mem_cons_self, ih fun n hn => h n (List.mem_cons_of_mem _ hn)⟩

/-- One match, read with `k` nested calls. -/
def readMatch (t : TravTree) (pg : ParseGrammar) (k : Nat) : TermMatch → Option ParseTreeNode
  | .terminal s => some (.terminal s)
  | .nonterminal c =>
    match parseTree t pg k c with
    | none => none
    | some pt => some (.nonterminal pt.lhs pt.rhs)

theorem parseTree_succ (t : TravTree) (pg : ParseGrammar) (k id : Nat) : parseTree t pg (k + 1) id =
    match t.get id with
    | none => none
    | some tr =>
      match pg.prodById tr.prodId with
      | none => none
      | some prod =>
        match t.getMatched id with
        | none => none
        | some ms =>
          match ms.mapM (readMatch t pg k) with
          | none => none
          | some rhs => some ⟨prod.lhs, rhs⟩ := by
  rw [parseTree]
  rfl

theorem mapM_split {α β : Type} {f f' : α → Option β} {l : List α} {ys : List β} (h : l.mapM f = some ys) :
    (∀ a ∈ l, ∀ y ∈ ys, f a = some y → f' a = some y) → l.mapM f' = some ys := by
  induction l generalizing ys with
  | nil => intro _; simpa using h
  | cons a l ih =>
    intro hf
    rw [List.mapM_cons] at h ⊢
    cases ha : f a with
    | none => rw [ha] at h; cases h
    | some y =>
      rw [ha] at h
      cases hl : l.mapM f with
      | none => rw [hl] at h; cases h
      | some zs =>
        rw [hl] at h
        have h : y :: zs = ys := by simpa using h
        subst h
        have h1 := hf a List.mem_cons_self y List.mem_cons_self ha
        have h2 := ih hl fun b hb z hz => hf b (List.mem_cons_of_mem _ hb) z (List.mem_cons_of_mem _ hz)
        rw [h1, h2]
        rfl

theorem mapM_mem {α β : Type} {f : α → Option β} {l : List α} {ys : List β} (h : l.mapM f = some ys) {y : β} (hy : y ∈ ys) :
    ∃ a ∈ l, f a = some y := by
  induction l generalizing ys with
  | nil =>
    have h : ys = [] := by simpa using h.symm
    rw [h] at hy; cases hy
  | cons a l ih =>
    rw [List.mapM_cons] at h
    cases ha : f a with
    | none => rw [ha] at h; cases h
    | some z =>
      rw [ha] at h
      cases hl : l.mapM f with
      | none => rw [hl] at h; cases h
      | some zs =>
        rw [hl] at h
        have h : z :: zs = ys := by simpa using h
        subst h
        rcases List.mem_cons.mp hy with rfl | hy
        · exact ⟨a, List.mem_cons_self, ha⟩
        · obtain ⟨b, hb, hfb⟩ := ih hl hy
          exact ⟨b, List.mem_cons_of_mem _ hb, hfb⟩

theorem readMatch_some {t : TravTree} {pg : ParseGrammar} {k : Nat} {m : TermMatch} {y : ParseTreeNode} (h : readMatch t pg k m = some y) :
    (∃ s, m = .terminal s ∧ y = .terminal s) ∨ ∃ c pt, m = .nonterminal c ∧ parseTree t pg k c = some pt ∧ y = .nonterminal pt.lhs pt.rhs := by
  cases m with
  | terminal s => simp only [readMatch, Option.some.injEq] at h; exact .inl ⟨s, rfl, h.symm⟩
  | nonterminal c =>
    cases hp : parseTree t pg k c with
    | none => simp [readMatch, hp] at h
    | some pt => simp only [readMatch, hp, Option.some.injEq] at h; exact .inr ⟨c, pt, rfl, hp, h.symm⟩

/-- Reading a tree takes exactly as many nested calls as the tree is nested. -/
theorem parseTree_nesting {t : TravTree} {pg : ParseGrammar} : ∀ {n id : Nat} {tree : ParseTree}, parseTree t pg n id = some tree →
    treeNesting tree ≤ n ∧ ∀ k, treeNesting tree ≤ k → parseTree t pg k id = some tree
  | 0, _, _, h => by rw [parseTree] at h; cases h
  | n + 1, id, tree, h => by
    rw [parseTree_succ] at h
    cases h1 : t.get id with
    | none => rw [h1] at h; cases h
    | some tr =>
      cases h2 : pg.prodById tr.prodId with
      | none => simp only [h1, h2] at h; cases h
      | some prod =>
        cases h3 : t.getMatched id with
        | none => simp only [h1, h2, h3] at h; cases h
        | some ms =>
          cases h4 : ms.mapM (readMatch t pg n) with
          | none => simp only [h1, h2, h3, h4] at h; cases h
          | some rhs =>
            simp only [h1, h2, h3, h4, Option.some.injEq] at h
            subst h
            refine ⟨?_, fun k hk => ?_⟩
            · simp only [treeNesting, nodeNesting]
              refine Nat.succ_le_succ (kids_le_iff.mpr fun y hy => ?_)
              obtain ⟨m, _, hm⟩ := mapM_mem h4 hy
              rcases readMatch_some hm with ⟨s, _, rfl⟩ | ⟨c, pt, _, hp, rfl⟩
              · exact Nat.zero_le _
              · exact (parseTree_nesting hp).1
            · simp only [treeNesting, nodeNesting] at hk
              obtain ⟨j, rfl⟩ : ∃ j, k = j + 1 := ⟨k - 1, by omega⟩
              have hk := kids_le_iff.mp (Nat.le_of_succ_le_succ hk)
              rw [parseTree_succ]
              have h5 : ms.mapM (readMatch t pg j) = some rhs := by
                refine mapM_split h4 fun m _ y hy hm => ?_
                rcases readMatch_some hm with ⟨s, rfl, rfl⟩ | ⟨c, pt, rfl, hp, rfl⟩
                · rfl
                · simp only [readMatch, (parseTree_nesting hp).2 j (hk _ hy)]
              simp only [h1, h2, h3, h5]

/-! ## Bounds -/

section
variable {g : Grammar}

/-- The names with a production. -/
def declaredNames (g : Grammar) : Finset Term := (g.productions.map (·.lhs)).toFinset

open Classical in
/-- The names that can be reached by unit steps. -/
noncomputable def unitReach (g : Grammar) (n : Str) : Finset Term :=
  (declaredNames g).filter fun l => ∃ m, l = .nonterminal m ∧ Relation.ReflTransGen (UnitStep g) n m

theorem hasAlt_declared {n : Str} {e : Expression} (h : HasAlt g (.nonterminal n) e) : Term.nonterminal n ∈ declaredNames g := by
  obtain ⟨p, hp, hl, _⟩ := h
  unfold declaredNames
  rw [List.mem_toFinset]
  exact List.mem_map.mpr ⟨p, hp, hl⟩

theorem mem_unitReach {n : Str} {l : Term} :
    l ∈ unitReach g n ↔ l ∈ declaredNames g ∧ ∃ m, l = .nonterminal m ∧ Relation.ReflTransGen (UnitStep g) n m := by
  classical
  unfold unitReach
  exact Finset.mem_filter

theorem self_unitReach {n : Str} {e : Expression} (h : HasAlt g (.nonterminal n) e) : Term.nonterminal n ∈ unitReach g n := by
  exact mem_unitReach.mpr ⟨hasAlt_declared h, n, rfl, .refl⟩

theorem unitReach_card (n : Str) : (unitReach g n).card ≤ (declaredNames g).card := by
  exact Finset.card_le_card fun l hl => (mem_unitReach.mp hl).1

theorem unitReach_step (ha : Acyclic g) {n m : Str} {e : Expression} (h : HasAlt g (.nonterminal n) e) (hs : UnitStep g n m) :
    (unitReach g m).card < (unitReach g n).card := by
  apply Finset.card_lt_card
  rw [Finset.ssubset_iff_of_subset]
  · refine ⟨.nonterminal n, self_unitReach h, fun hc => ?_⟩
    obtain ⟨_, k, hk, hr⟩ := mem_unitReach.mp hc
    injection hk with hk
    subst hk
    exact ha n (Relation.TransGen.head' hs hr)
  · intro l hl
    obtain ⟨h1, k, hk, hr⟩ := mem_unitReach.mp hl
    exact mem_unitReach.mpr ⟨h1, k, hk, .head hs hr⟩

/-- A child of a node: the other children before and after it are forests. -/
theorem forest_part {ts : List Term} {ns : List ParseTreeNode} (h : IsForest g ts ns) {l : Term} {kids : List ParseTreeNode}
    (hm : ParseTreeNode.nonterminal l kids ∈ ns) : ∃ m pre post nb na, l = .nonterminal m ∧ ts = pre ++ .nonterminal m :: post ∧
      ns = nb ++ .nonterminal l kids :: na ∧ IsForest g pre nb ∧ IsForest g post na ∧
      ∃ e, HasAlt g (.nonterminal m) e ∧ IsForest g e.terms kids := by
  induction h with
  | nil => cases hm
  | @terminal s ts ns hf ih =>
    rcases List.mem_cons.mp hm with hc | hm
    · cases hc
    · obtain ⟨m, pre, post, nb, na, h1, h2, h3, h4, h5, h6⟩ := ih hm
      exact ⟨m, .terminal s :: pre, post, .terminal s :: nb, na, h1, by rw [h2]; rfl, by rw [h3]; rfl, .terminal h4, h5, h6⟩
  | @nonterminal n e kids' ts ns he hk hf _ ih =>
    rcases List.mem_cons.mp hm with hc | hm
    · injection hc with hc1 hc2
      subst hc1; subst hc2
      exact ⟨n, [], ts, [], ns, rfl, rfl, rfl, .nil, hf, e, he, hk⟩
    · obtain ⟨m, pre, post, nb, na, h1, h2, h3, h4, h5, h6⟩ := ih hm
      exact ⟨m, .nonterminal n :: pre, post, .nonterminal (.nonterminal n) kids' :: nb, na, h1, by rw [h2]; rfl, by rw [h3]; rfl,
        .nonterminal he hk h4, h5, h6⟩

theorem yield_parts (nb na : List ParseTreeNode) (x : ParseTreeNode) :
    Spec.yield (nb ++ x :: na) = Spec.yield nb ++ (nodeYield x ++ Spec.yield na) := by
  induction nb with
  | nil => simp [Spec.yield]
  | cons b nb ih => simp [Spec.yield, ih]

/-- The size of a node, for induction. -/
theorem kids_size {n : ParseTreeNode} {ns : List ParseTreeNode} (h : n ∈ ns) : sizeOf n < sizeOf ns := List.sizeOf_lt_of_mem h

theorem nesting_acyclic (ha : Acyclic g) : ∀ (s : Nat) (n : Str) (kids : List ParseTreeNode), sizeOf kids ≤ s → ∀ e, HasAlt g (.nonterminal n) e →
    IsForest g e.terms kids → kidsNesting kids + 1 ≤ (declaredNames g).card * (Spec.yield kids).length + (unitReach g n).card
  | s, n, kids, hs, e, he, hf => by
    have hself : 1 ≤ (unitReach g n).card := Finset.card_pos.mpr ⟨_, self_unitReach he⟩
    suffices h : ∀ x ∈ kids, nodeNesting x + 1 ≤ (declaredNames g).card * (Spec.yield kids).length + (unitReach g n).card by
      rcases Nat.eq_zero_or_pos (kidsNesting kids) with h0 | h0
      · omega
      · have : kidsNesting kids ≤ (declaredNames g).card * (Spec.yield kids).length + (unitReach g n).card - 1 :=
          kids_le_iff.mpr fun x hx => by have := h x hx; omega
        omega
    intro x hx
    cases x with
    | terminal u => simp only [nodeNesting]; omega
    | nonterminal l ks =>
      obtain ⟨m, pre, post, nb, na, rfl, hts, hns, hb, hp, e', he', hk⟩ := forest_part hf hx
      have hlt : sizeOf ks < s := by
        have h1 := kids_size hx
        have h2 : sizeOf ks < sizeOf (ParseTreeNode.nonterminal (.nonterminal m) ks) := by simp
        omega
      have ih := nesting_acyclic ha (s - 1) m ks (by omega) e' he' hk
      simp only [nodeNesting]
      have hy : (Spec.yield kids).length = (Spec.yield nb).length + ((Spec.yield ks).length + (Spec.yield na).length) := by
        rw [hns, yield_parts]; simp [nodeYield]
      by_cases hfull : (Spec.yield nb).length = 0 ∧ (Spec.yield na).length = 0
      · have hstep : UnitStep g n m := ⟨e, pre, post, he, hts, ⟨nb, hb, List.length_eq_zero_iff.mp hfull.1⟩, ⟨na, hp, List.length_eq_zero_iff.mp hfull.2⟩⟩
        have := unitReach_step ha he hstep
        rw [hy, hfull.1, hfull.2, Nat.zero_add]
        simp only [Nat.add_zero]
        omega
      · have h1 : (Spec.yield ks).length + 1 ≤ (Spec.yield kids).length := by omega
        have h2 := Nat.mul_le_mul_left (declaredNames g).card h1
        have h3 := unitReach_card (g := g) m
        rw [Nat.mul_add, Nat.mul_one] at h2
        omega
  termination_by s => s
  decreasing_by omega

/-! ## Long inputs need deep trees -/

theorem yield_deep {B T : Nat} (hB : ∀ p ∈ g.productions, ∀ e ∈ p.rhs, e.terms.length ≤ B)
    (hT : ∀ p ∈ g.productions, ∀ e ∈ p.rhs, ∀ u, .terminal u ∈ e.terms → u.length ≤ T) (hB1 : 1 ≤ B) {ts ns} (h : IsForest g ts ns) :
    (∀ u, .terminal u ∈ ts → u.length ≤ T) → (Spec.yield ns).length ≤ ts.length * (T * B ^ kidsNesting ns) := by
  induction h with
  | nil => intro _; simp [Spec.yield]
  | @terminal s ts ns hf ih =>
    intro ht
    have h1 := ih fun u hu => ht u (List.mem_cons_of_mem _ hu)
    have h2 := ht s List.mem_cons_self
    simp only [Spec.yield, nodeYield, List.length_append, List.length_cons, kidsNesting, nodeNesting, Nat.zero_max]
    have h3 : T * 1 ≤ T * B ^ kidsNesting ns := Nat.mul_le_mul_left _ (Nat.one_le_pow _ _ hB1)
    rw [Nat.add_mul, Nat.one_mul]
    omega
  | @nonterminal n e kids ts ns he hk hf ihk ih =>
    intro ht
    have h1 := ih fun u hu => ht u (List.mem_cons_of_mem _ hu)
    obtain ⟨p, hp, _, hep⟩ := he
    have h2 := ihk fun u hu => hT p hp e hep u hu
    simp only [Spec.yield, nodeYield, List.length_append, List.length_cons, kidsNesting, nodeNesting]
    have h3 : e.terms.length * (T * B ^ kidsNesting kids) ≤ T * B ^ (kidsNesting kids + 1) := by
      rw [Nat.pow_succ]
      calc e.terms.length * (T * B ^ kidsNesting kids) ≤ B * (T * B ^ kidsNesting kids) := Nat.mul_le_mul_right _ (hB p hp e hep)
        _ = T * (B ^ kidsNesting kids * B) := by rw [Nat.mul_comm B, Nat.mul_assoc]
    have h4 : T * B ^ (kidsNesting kids + 1) ≤ T * B ^ max (kidsNesting kids + 1) (kidsNesting ns) :=
      Nat.mul_le_mul_left _ (Nat.pow_le_pow_right hB1 (Nat.le_max_left _ _))
    have h5 : ts.length * (T * B ^ kidsNesting ns) ≤ ts.length * (T * B ^ max (kidsNesting kids + 1) (kidsNesting ns)) :=
      Nat.mul_le_mul_left _ (Nat.mul_le_mul_left _ (Nat.pow_le_pow_right hB1 (Nat.le_max_right _ _)))
    rw [Nat.add_mul, Nat.one_mul]
    omega

end

/-! ## Generating -/

section
variable {g : Grammar} {σ : Type} {S : Strategy σ}

/-- The callback that accepts everything (`src/grammar.rs` 637). -/
def always (σ : Type) : Callback σ := fun st _ _ => (true, st)

/-- `evalTerms` with recursive calls that take as many nested calls as the trees are nested. -/
theorem evalTerms_nesting {tr : Nat → Str → σ → GenRes σ} {n : Nat}
    (htr : ∀ id st s st', (∃ q ∈ g.productions, q.lhs = .nonterminal id) → tr n id st = .done (.ok s) st' →
      ∃ e kids, HasAlt g (.nonterminal id) e ∧ IsForest g e.terms kids ∧ Spec.yield kids = s ∧
        ∀ k, tr k id st = if kidsNesting kids + 1 ≤ k then .done (.ok s) st' else .fuel) :
    ∀ (ts : List Term) (r : Str) (st st' : σ) (s : Str), (∀ x, .nonterminal x ∈ ts → ∃ q ∈ g.productions, q.lhs = .nonterminal x) →
      evalTerms (tr n) ts r st = .done (.ok s) st' →
      ∃ kids, IsForest g ts kids ∧ s = r ++ Spec.yield kids ∧ ∀ k, evalTerms (tr k) ts r st = if kidsNesting kids ≤ k then .done (.ok s) st' else .fuel
  | [], r, st, st', s, _, h => by
    simp only [evalTerms, GenRes.done.injEq, Except.ok.injEq] at h
    obtain ⟨rfl, rfl⟩ := h
    exact ⟨[], .nil, by simp [Spec.yield], fun k => by simp [evalTerms, kidsNesting]⟩
  | .terminal u :: ts, r, st, st', s, hd, h => by
    simp only [evalTerms] at h
    obtain ⟨kids, h1, h2, h3⟩ := evalTerms_nesting htr ts _ st st' s (fun x hx => hd x (List.mem_cons_of_mem _ hx)) h
    refine ⟨.terminal u :: kids, .terminal h1, by rw [h2]; simp [Spec.yield, nodeYield], fun k => ?_⟩
    simp only [evalTerms, kidsNesting, nodeNesting, Nat.zero_max]
    exact h3 k
  | .nonterminal x :: ts, r, st, st', s, hd, h => by
    simp only [evalTerms] at h
    cases hx : tr n x st with
    | fuel => rw [hx] at h; cases h
    | panic => rw [hx] at h; cases h
    | done res st1 =>
      cases res with
      | error e => rw [hx] at h; simp at h
      | ok v =>
        rw [hx] at h
        obtain ⟨e, ks, he, hf, hy, hk⟩ := htr x st v st1 (hd x List.mem_cons_self) hx
        obtain ⟨kids, h1, h2, h3⟩ := evalTerms_nesting htr ts _ st1 st' s (fun y hy => hd y (List.mem_cons_of_mem _ hy)) h
        refine ⟨.nonterminal (.nonterminal x) ks :: kids, .nonterminal he hf h1, by rw [h2, ← hy]; simp [Spec.yield, nodeYield], fun k => ?_⟩
        simp only [evalTerms, kidsNesting, nodeNesting, hk k]
        by_cases hc : kidsNesting ks + 1 ≤ k
        · rw [if_pos hc]
          simp only [h3 k, Nat.max_le, hc, true_and]
        · simp only [Nat.max_le, hc, false_and, if_false]

/-- Generating takes exactly as many nested calls as the tree of the sentence is nested. -/
theorem traverse_nesting (hS : Faithful S) (hd : AllDeclared g) : ∀ (n : Nat) (id : Str) (d : Nat) (st st' : σ) (s : Str),
    (∃ q ∈ g.productions, q.lhs = .nonterminal id) → traverse g S (always σ) n id d st = .done (.ok s) st' →
    ∃ e kids, HasAlt g (.nonterminal id) e ∧ IsForest g e.terms kids ∧ Spec.yield kids = s ∧
      ∀ k, traverse g S (always σ) k id d st = if kidsNesting kids + 1 ≤ k then .done (.ok s) st' else .fuel
  | 0, _, _, _, _, _, _, h => by simp [traverse] at h
  | n + 1, id, d, st, st', s, hq, h => by
    cases hf : findProduction id g.productions 0 with
    | none =>
      obtain ⟨q, hq, hl⟩ := hq
      exact absurd hl (findProduction_none hf q hq)
    | some x =>
      obtain ⟨a, p⟩ := x
      have hp : p ∈ g.productions ∧ p.lhs = .nonterminal id := by
        obtain ⟨b, af, h1, h2, _⟩ := findProduction_some hf
        exact ⟨by rw [h1]; simp, h2⟩
      by_cases hn : productionHasNoChoice p = true
      · rw [traverse_noChoice hf hn] at h; simp at h
      · rw [traverse_choose hf hn] at h
        cases hc : S.choose st a p d with
        | mk c st1 =>
          cases c with
          | panic => rw [hc] at h; cases h
          | none => rw [hc] at h; simp at h
          | expr e =>
            rw [hc] at h
            simp only at h
            have he : e ∈ p.rhs := hS _ _ _ _ _ _ hc
            cases hev : evalTerms (fun nt st => traverse g S (always σ) n nt (d + 1) st) e.terms [] st1 with
            | fuel => rw [hev] at h; cases h
            | panic => rw [hev] at h; cases h
            | done res st2 =>
              cases res with
              | error er => rw [hev] at h; simp at h
              | ok v =>
                rw [hev] at h
                simp only [always, if_true, GenRes.done.injEq, Except.ok.injEq] at h
                obtain ⟨rfl, rfl⟩ := h
                obtain ⟨kids, h1, h2, h3⟩ := evalTerms_nesting (g := g) (tr := fun k nt st => traverse g S (always σ) k nt (d + 1) st) (n := n)
                  (fun id st s st' hq h => traverse_nesting hS hd n id (d + 1) st st' s hq h) e.terms [] st1 st2 v
                  (fun x hx => hd p hp.1 e he x hx) hev
                refine ⟨e, kids, ⟨p, hp.1, hp.2, he⟩, h1, by simpa using h2.symm, fun k => ?_⟩
                cases k with
                | zero => simp [traverse]
                | succ k =>
                  rw [traverse_choose hf hn, hc]
                  simp only [h3 k, Nat.add_le_add_iff_right]
                  by_cases hk : kidsNesting kids ≤ k
                  · simp [hk, always]
                  · simp [hk]

end

end Bnf
