import Verif.Proofs.Script
import Verif.Spec.Endless
import Mathlib.Data.List.Perm.Subperm
import Mathlib.Logic.Relation

/-! # When generation need not end -/

set_option autoImplicit false

namespace Bnf
open Spec

variable {σ : Type} {g : Grammar} {S : Strategy σ} {A : Allowance}

/-- The strategy makes allowed choices, for the productions of the grammar. -/
def Obeys (g : Grammar) (S : Strategy σ) (A : Allowance) : Prop :=
  ∀ st a p d, p ∈ g.productions → p.rhs ≠ [] → ∃ e st', S.choose st a p d = (.expr e, st') ∧ A d p e

/-- Every allowed choice can be brought about by prefixing the state with a number. -/
def Steerable (g : Grammar) (S : Strategy σ) (A : Allowance) (push : Nat → σ → σ) : Prop :=
  ∀ a p d e, p ∈ g.productions → A d p e → ∃ k, ∀ st, S.choose (push k st) a p d = (.expr e, st)

theorem evalTerms_ok_parts {trav : Str → σ → GenRes σ} : ∀ (ts : List Term) (r : Str) (st : σ) {s st'},
    evalTerms trav ts r st = .done (.ok s) st' → ∀ k, .nonterminal k ∈ ts → ∃ st1 s1 st2, trav k st1 = .done (.ok s1) st2
  | [], r, st, s, st', _, k, hk => by simp at hk
  | .terminal t :: ts, r, st, s, st', h, k, hk => by
    rw [evalTerms] at h
    exact evalTerms_ok_parts ts _ _ h k (by simpa using hk)
  | .nonterminal n :: ts, r, st, s, st', h, k, hk => by
    rw [evalTerms] at h
    split at h
    · rename_i s1 st1 h1
      rcases List.mem_cons.1 hk with hk | hk
      · injection hk with hk; subst hk; exact ⟨_, _, _, h1⟩
      · exact evalTerms_ok_parts ts _ _ h k hk
    · simp at h
    · cases h
    · cases h

theorem rhs_ne_of_choice {p : Production} (h : ¬ NoChoice p) : p.rhs ≠ [] := fun h' => h (.inl h')

theorem finishable_of_ok (hS : Obeys g S A) : ∀ (N : Nat) {n d st s st'},
    traverse g S (acceptAll σ) N n d st = .done (.ok s) st' → Finishable g A d n
  | 0, _, _, _, _, _, h => by simp [traverse] at h
  | N + 1, n, d, st, s, st', h => by
    cases hf : findProduction n g.productions 0 with
    | none => exact .undeclared (undeclared_of_find hf)
    | some x =>
      obtain ⟨a, p⟩ := x
      by_cases hn : productionHasNoChoice p = true
      · rw [traverse_noChoice hf hn] at h; simp at h
      · have hn' : ¬ NoChoice p := by rwa [noChoice_iff] at hn
        rw [traverse_choose hf hn] at h
        have hp := isFirst_of_find hf
        obtain ⟨e, st1, hc, hA⟩ := hS st a p d (isFirst_mem hp) (rhs_ne_of_choice hn')
        rw [hc] at h
        simp only at h
        split at h
        · rename_i h1
          refine .expand hp hn' hA fun m hm => ?_
          obtain ⟨st2, s2, st3, h2⟩ := evalTerms_ok_parts _ _ _ h1 m hm
          exact finishable_of_ok hS N h2
        · rename_i h1; exact absurd h (h1 _ _)

theorem evalTerms_endless {trav : Nat → Str → σ → GenRes σ}
    (hm : ∀ i j, i ≤ j → ∀ n st, trav i n st ≠ .fuel → trav j n st = trav i n st) : ∀ (ts : List Term) (r : Str) (st : σ),
    (∀ N, evalTerms (trav N) ts r st = .fuel) →
    ∃ before m after st', ts = before ++ .nonterminal m :: after ∧ (∀ N, trav N m st' = .fuel) ∧
      ∀ k, .nonterminal k ∈ before → ∃ N st1 s st2, trav N k st1 = .done (.ok s) st2
  | [], r, st, h => by simp [evalTerms] at h
  | .terminal t :: ts, r, st, h => by
    simp only [evalTerms] at h
    obtain ⟨b, m, af, st', h1, h2, h3⟩ := evalTerms_endless hm ts _ _ h
    exact ⟨.terminal t :: b, m, af, st', by simp [h1], h2, fun k hk => h3 k (by simpa using hk)⟩
  | .nonterminal n :: ts, r, st, h => by
    by_cases hall : ∀ N, trav N n st = .fuel
    · exact ⟨[], n, ts, st, rfl, hall, by simp⟩
    · obtain ⟨N, hN⟩ := Classical.not_forall.1 hall
      have hN' := h N
      rw [evalTerms] at hN'
      split at hN'
      · rename_i s1 st1 h1
        have : ∀ M, evalTerms (trav M) ts (r ++ s1) st1 = .fuel := by
          intro M
          have e1 : evalTerms (trav (max M N)) ts (r ++ s1) st1 = .fuel := by
            have := h (max M N)
            rw [evalTerms, hm N _ (Nat.le_max_right _ _) n st hN, h1] at this
            exact this
          apply Classical.byContradiction
          intro hne
          rw [evalTerms_more (fun n st h => hm M (max M N) (Nat.le_max_left _ _) n st h) _ _ _ hne] at e1
          exact hne e1
        obtain ⟨b, m, af, st', h2, h3, h4⟩ := evalTerms_endless hm ts _ _ this
        refine ⟨.nonterminal n :: b, m, af, st', by simp [h2], h3, fun k hk => ?_⟩
        rcases List.mem_cons.1 hk with hk | hk
        · injection hk with hk; subst hk; exact ⟨N, _, _, _, h1⟩
        · exact h4 k hk
      · cases hN'
      · cases hN'
      · rename_i h1; exact absurd h1 hN

/-- A call that does not return leads to another one, one level deeper. -/
theorem endless_step (hS : Obeys g S A) {n d st} (h : ∀ N, traverse g S (acceptAll σ) N n d st = .fuel) :
    ∃ m st', Leads g A d n m ∧ ∀ N, traverse g S (acceptAll σ) N m (d + 1) st' = .fuel := by
  cases hf : findProduction n g.productions 0 with
  | none => have := h 1; rw [traverse_undeclared hf] at this; cases this
  | some x =>
    obtain ⟨a, p⟩ := x
    by_cases hn : productionHasNoChoice p = true
    · have := h 1; rw [traverse_noChoice hf hn] at this; cases this
    · have hn' : ¬ NoChoice p := by rwa [noChoice_iff] at hn
      have hp := isFirst_of_find hf
      obtain ⟨e, st1, hc, hA⟩ := hS st a p d (isFirst_mem hp) (rhs_ne_of_choice hn')
      have hev : ∀ N, evalTerms (fun nt st => traverse g S (acceptAll σ) N nt (d + 1) st) e.terms [] st1 = .fuel := by
        intro N
        have := h (N + 1)
        rw [traverse_choose hf hn, hc] at this
        simp only at this
        split at this
        · simp [acceptAll] at this
        · exact this
      obtain ⟨b, m, af, st', h1, h2, h3⟩ := evalTerms_endless (trav := fun N nt st => traverse g S (acceptAll σ) N nt (d + 1) st)
        (fun i j hij n st hne => traverse_more hij hne) _ _ _ hev
      refine ⟨m, st', ⟨p, e, b, af, hp, hn', hA, h1, fun k hk => ?_⟩, h2⟩
      obtain ⟨N, st1, s, st2, h4⟩ := h3 k hk
      exact finishable_of_ok hS N h4

theorem infinite_path {α : Type} {Rel : α → α → Prop} {P : α → Prop} (step : ∀ x, P x → ∃ y, P y ∧ Rel x y) {x : α} (hx : P x) :
    ∃ f : Nat → α, f 0 = x ∧ ∀ i, Rel (f i) (f (i + 1)) := by
  have step' : ∀ x : { x // P x }, ∃ y : { x // P x }, Rel x.1 y.1 := by
    rintro ⟨x, hx⟩
    obtain ⟨y, h1, h2⟩ := step x hx
    exact ⟨⟨y, h1⟩, h2⟩
  let nx := fun x => Classical.choose (step' x)
  have hnx : ∀ x, Rel x.1 (nx x).1 := fun x => Classical.choose_spec (step' x)
  let f : Nat → { x // P x } := fun i => Nat.rec ⟨x, hx⟩ (fun _ x => nx x) i
  exact ⟨fun i => (f i).1, rfl, fun i => hnx (f i)⟩

theorem endless_of_path {f : Nat → Nat × Str} (h : ∀ i, (f (i + 1)).1 = (f i).1 + 1 ∧ Leads g A (f i).1 (f i).2 (f (i + 1)).2) :
    Endless g A (f 0).1 (f 0).2 := by
  have hd : ∀ i, (f i).1 = (f 0).1 + i := by
    intro i
    induction i with
    | zero => rfl
    | succ i ih => rw [(h i).1, ih]; omega
  refine ⟨fun i => (f i).2, rfl, fun i => ?_⟩
  rw [← hd i]
  exact (h i).2

theorem endless_of_diverges (hS : Obeys g S A) {n d st} (h : ∀ N, traverse g S (acceptAll σ) N n d st = .fuel) :
    Endless g A d n := by
  obtain ⟨f, h0, hf⟩ := infinite_path (α := (Nat × Str) × σ)
    (P := fun x => ∀ N, traverse g S (acceptAll σ) N x.1.2 x.1.1 x.2 = .fuel)
    (Rel := fun x y => y.1.1 = x.1.1 + 1 ∧ Leads g A x.1.1 x.1.2 y.1.2) (x := ((d, n), st))
    (fun x hx => by
      obtain ⟨m, st', h1, h2⟩ := endless_step hS hx
      exact ⟨((x.1.1 + 1, m), st'), h2, rfl, h1⟩) h
  have := endless_of_path (f := fun i => (f i).1) hf
  rw [h0] at this
  exact this

/-! ## Bounded otherwise -/

/-- One step down with the depth. -/
def Below (g : Grammar) (A : Allowance) (y x : Nat × Str) : Prop := y.1 = x.1 + 1 ∧ Leads g A x.1 x.2 y.2

theorem acc_of_not_endless {d n} (h : ¬ Endless g A d n) : Acc (Below g A) (d, n) := by
  apply Classical.byContradiction
  intro hacc
  obtain ⟨f, h0, hf⟩ := infinite_path (P := fun x => ¬ Acc (Below g A) x) (Rel := fun x y => Below g A y x)
    (fun x hx => by
      apply Classical.byContradiction
      intro hno
      exact hx ⟨_, fun y hy => Classical.byContradiction fun hny => hno ⟨y, hny, hy⟩⟩) hacc
  have := endless_of_path (f := f) hf
  rw [h0] at this
  exact h this

theorem evalTerms_bounded {trav : Str → σ → GenRes σ} {Q : Str → Prop} (hok : ∀ k st s st', trav k st = .done (.ok s) st' → Q k) :
    ∀ (ts : List Term) (r : Str) (st : σ),
    (∀ before m after, ts = before ++ .nonterminal m :: after → (∀ k, .nonterminal k ∈ before → Q k) → ∀ st, trav m st ≠ .fuel) →
    evalTerms trav ts r st ≠ .fuel
  | [], r, st, _ => by simp [evalTerms]
  | .terminal t :: ts, r, st, h => by
    rw [evalTerms]
    exact evalTerms_bounded hok ts _ _ fun b m af e hb => h (.terminal t :: b) m af (by simp [e]) (fun k hk => hb k (by simpa using hk))
  | .nonterminal n :: ts, r, st, h => by
    rw [evalTerms]
    split
    · rename_i s1 st1 h1
      refine evalTerms_bounded hok ts _ _ fun b m af e hb => h (.nonterminal n :: b) m af (by simp [e]) (fun k hk => ?_)
      rcases List.mem_cons.1 hk with hk | hk
      · injection hk with hk; subst hk; exact hok _ _ _ _ h1
      · exact hb k hk
    · simp
    · simp
    · rename_i h1; exact absurd h1 (h [] n ts rfl (by simp) _)

/-- Without an infinite path the nesting is bounded, uniformly for all strategies that make allowed choices. -/
theorem bounded_of_not_endless (hmem : ∀ {d p e}, A d p e → e ∈ p.rhs) {d n} (h : ¬ Endless g A d n) :
    ∃ N, ∀ (σ : Type) (S : Strategy σ), Obeys g S A → ∀ st, traverse g S (acceptAll σ) N n d st ≠ .fuel := by
  have key : ∀ x : Nat × Str, Acc (Below g A) x →
      ∃ N, ∀ (σ : Type) (S : Strategy σ), Obeys g S A → ∀ st, traverse g S (acceptAll σ) N x.2 x.1 st ≠ .fuel := by
    intro x hx
    induction hx with
    | intro x _ ih =>
      obtain ⟨d, n⟩ := x
      cases hf : findProduction n g.productions 0 with
      | none => exact ⟨1, fun σ S _ st => by rw [traverse_undeclared hf]; simp⟩
      | some y =>
        obtain ⟨a, p⟩ := y
        have hp := isFirst_of_find hf
        obtain ⟨N, hN⟩ := exists_bound
          (P := fun k N => Leads g A d n k → ∀ (σ : Type) (S : Strategy σ), Obeys g S A → ∀ st,
            traverse g S (acceptAll σ) N k (d + 1) st ≠ .fuel)
          (fun k i j hij h hl σ S hS st => by rw [traverse_more hij (h hl σ S hS st)]; exact h hl σ S hS st)
          ((p.rhs.flatMap fun e => e.terms).map Term.name)
          (fun k _ => by
            by_cases hl : Leads g A d n k
            · obtain ⟨N, hN⟩ := ih (d + 1, k) ⟨rfl, hl⟩
              exact ⟨N, fun _ => hN⟩
            · exact ⟨0, fun h => absurd h hl⟩)
        refine ⟨N + 1, fun σ S hS st => ?_⟩
        by_cases hn : productionHasNoChoice p = true
        · rw [traverse_noChoice hf hn]; simp
        · have hn' : ¬ NoChoice p := by rwa [noChoice_iff] at hn
          obtain ⟨e, st1, hc, hA⟩ := hS st a p d (isFirst_mem hp) (rhs_ne_of_choice hn')
          rw [traverse_choose hf hn, hc]
          have := evalTerms_bounded (trav := fun nt st => traverse g S (acceptAll σ) N nt (d + 1) st)
            (Q := fun k => Finishable g A (d + 1) k) (fun k st s st' h => finishable_of_ok hS N h) e.terms [] st1
            (fun b m af he hb => hN m
              (List.mem_map.2 ⟨.nonterminal m, List.mem_flatMap.2 ⟨e, hmem hA, by rw [he]; simp⟩, rfl⟩)
              ⟨p, e, b, af, hp, hn', hA, he, hb⟩ σ S hS)
          simp only
          split
          · simp [acceptAll]
          · exact this
  exact key (d, n) (acc_of_not_endless h)

/-! ## Every infinite path can be followed -/

theorem evalTerms_script {push : Nat → σ → σ} {d : Nat} : ∀ (ts : List Term),
    (∀ k, .nonterminal k ∈ ts → ∃ (script : List Nat) (N : Nat) (v : Str), ∀ st,
      traverse g S (acceptAll σ) N k d (script.foldr push st) = .done (.ok v) st) → ∃ (script : List Nat) (N : Nat) (w : Str), ∀ r st,
      evalTerms (fun nt st => traverse g S (acceptAll σ) N nt d st) ts r (script.foldr push st) = .done (.ok (r ++ w)) st
  | [], _ => ⟨[], 0, [], fun r st => by simp [evalTerms]⟩
  | .terminal t :: ts, h => by
    obtain ⟨sc, N, w, h1⟩ := evalTerms_script ts fun k hk => h k (by simp [hk])
    exact ⟨sc, N, t ++ w, fun r st => by rw [evalTerms, h1]; simp⟩
  | .nonterminal n :: ts, h => by
    obtain ⟨sc1, N1, v, h1⟩ := h n (by simp)
    obtain ⟨sc2, N2, w, h2⟩ := evalTerms_script ts fun k hk => h k (by simp [hk])
    refine ⟨sc1 ++ sc2, max N1 N2, v ++ w, fun r st => ?_⟩
    rw [evalTerms, List.foldr_append]
    have e1 := h1 (sc2.foldr push st)
    rw [traverse_more (Nat.le_max_left _ _) (by rw [e1]; simp), e1]
    simp only
    have e2 := h2 (r ++ v) st
    rw [evalTerms_more (trav := fun nt st => traverse g S (acceptAll σ) N2 nt d st)
      (fun nt st hne => traverse_more (Nat.le_max_right _ _) hne) _ _ _ (by rw [e2]; simp), e2]
    simp

theorem traverse_steered {push : Nat → σ → σ} (hS : Steerable g S A push) {d n} (h : Finishable g A d n) :
    ∃ (script : List Nat) (N : Nat) (v : Str), ∀ st, traverse g S (acceptAll σ) N n d (script.foldr push st) = .done (.ok v) st := by
  induction h with
  | @undeclared d n hd => exact ⟨[], 1, n, fun st => by rw [traverse_undeclared (find_of_undeclared hd)]; rfl⟩
  | @expand d n p e hp hn hA hk ih =>
    obtain ⟨a, hf⟩ := find_of_isFirst hp
    obtain ⟨i, hi⟩ := hS a p d e (isFirst_mem hp) hA
    obtain ⟨sc, N, w, h1⟩ := evalTerms_script e.terms ih
    refine ⟨i :: sc, N + 1, w, fun st => ?_⟩
    rw [traverse_choose hf (by rw [noChoice_iff]; exact hn), List.foldr_cons, hi]
    simp only [h1, acceptAll, List.nil_append, if_true]

theorem evalTerms_append {trav : Str → σ → GenRes σ} : ∀ (ts us : List Term) (r : Str) (st : σ),
    evalTerms trav (ts ++ us) r st = match evalTerms trav ts r st with
      | .done (.ok r') st' => evalTerms trav us r' st'
      | x => x
  | [], us, r, st => by simp [evalTerms]
  | .terminal t :: ts, us, r, st => by rw [List.cons_append, evalTerms, evalTerms]; exact evalTerms_append ts us _ _
  | .nonterminal n :: ts, us, r, st => by
    rw [List.cons_append, evalTerms, evalTerms]
    split
    · exact evalTerms_append ts us _ _
    · rfl
    · rfl
    · rfl

theorem diverges_of_endless {push : Nat → σ → σ} (hS : Steerable g S A push)
    (hlim : ∀ L : Nat → List Nat, (∀ i, L i ≠ []) → ∃ F : Nat → σ, ∀ i, F i = (L i).foldr push (F (i + 1))) {d n}
    (h : Endless g A d n) : ∃ st, ∀ N, traverse g S (acceptAll σ) N n d st = .fuel := by
  obtain ⟨ns, rfl, hns⟩ := h
  have hstep : ∀ i, ∃ L : List Nat, L ≠ [] ∧ ∀ st N, (traverse g S (acceptAll σ) N (ns (i + 1)) (d + (i + 1)) st = .fuel) →
      traverse g S (acceptAll σ) (N + 1) (ns i) (d + i) (L.foldr push st) = .fuel := by
    intro i
    obtain ⟨p, e, b, af, hp, hn, hA, he, hb⟩ := hns i
    obtain ⟨a, hf⟩ := find_of_isFirst hp
    obtain ⟨k, hk⟩ := hS a p _ e (isFirst_mem hp) hA
    obtain ⟨sc, M, w, h1⟩ := evalTerms_script b fun k hk => traverse_steered hS (hb k hk)
    refine ⟨k :: sc, by simp, fun st N hN => ?_⟩
    rw [traverse_choose hf (by rw [noChoice_iff]; exact hn), List.foldr_cons, hk]
    have hev : evalTerms (fun nt st => traverse g S (acceptAll σ) N nt (d + i + 1) st) e.terms [] (sc.foldr push st) = .fuel := by
      rw [he, evalTerms_append]
      by_cases hfu : evalTerms (fun nt st => traverse g S (acceptAll σ) N nt (d + i + 1) st) b [] (sc.foldr push st) = .fuel
      · rw [hfu]
      · have e1 := h1 [] st
        have e2 := evalTerms_more (trav := fun nt st => traverse g S (acceptAll σ) N nt (d + i + 1) st)
          (trav' := fun nt st => traverse g S (acceptAll σ) (max N M) nt (d + i + 1) st)
          (fun nt st hne => traverse_more (Nat.le_max_left _ _) hne) _ _ _ hfu
        have e3 := evalTerms_more (trav := fun nt st => traverse g S (acceptAll σ) M nt (d + i + 1) st)
          (trav' := fun nt st => traverse g S (acceptAll σ) (max N M) nt (d + i + 1) st)
          (fun nt st hne => traverse_more (Nat.le_max_right _ _) hne) _ _ _ (by rw [e1]; simp)
        rw [← e2, e3, e1]
        simp only [evalTerms]
        rw [show d + i + 1 = d + (i + 1) from by omega, hN]
    simp only [hev]
  obtain ⟨L, hL⟩ : ∃ L : Nat → List Nat, ∀ i, L i ≠ [] ∧ ∀ st N, (traverse g S (acceptAll σ) N (ns (i + 1)) (d + (i + 1)) st = .fuel) →
      traverse g S (acceptAll σ) (N + 1) (ns i) (d + i) ((L i).foldr push st) = .fuel :=
    ⟨fun i => Classical.choose (hstep i), fun i => Classical.choose_spec (hstep i)⟩
  obtain ⟨F, hF⟩ := hlim L fun i => (hL i).1
  have : ∀ N i, traverse g S (acceptAll σ) N (ns i) (d + i) (F i) = .fuel := by
    intro N
    induction N with
    | zero => intro i; rfl
    | succ N ih => intro i; rw [hF i]; exact (hL i).2 _ _ (ih (i + 1))
  exact ⟨F 0, fun N => this N 0⟩

/-! ## A random source that plays back an infinite sequence -/

/-- Put a number in front of a sequence. -/
def consSeq (k : Nat) (s : Nat → Nat) : Nat → Nat
  | 0 => k
  | i + 1 => s i

/-- Plays back an infinite sequence of numbers. -/
def seqRng : Rng (Nat → Nat) (Nat → Nat) where
  index s n := (s 0 % n, fun i => s (i + 1))
  u32 s n := (s 0 % n, fun i => s (i + 1))
  fill s := (s, s)
  fromSeed s := s
  index_lt _ _ h := Nat.mod_lt _ h
  u32_lt _ _ h := Nat.mod_lt _ h

/-- The numbers that follow: the rest of a list, then the lists from `i` on. -/
def playLists (L : Nat → List Nat) : Nat → List Nat → Nat → Nat
  | 0, x :: _, _ => x
  | 0, [], i => (L i).headD 0
  | k + 1, _ :: xs, i => playLists L k xs i
  | k + 1, [], i => playLists L k (L i).tail (i + 1)

theorem consSeq_limit (L : Nat → List Nat) (hL : ∀ i, L i ≠ []) : ∃ F : Nat → Nat → Nat, ∀ i, F i = (L i).foldr consSeq (F (i + 1)) := by
  have hcons : ∀ x xs i, (fun k => playLists L k (x :: xs) i) = consSeq x (fun k => playLists L k xs i) := by
    intro x xs i; funext k; cases k <;> rfl
  have hlist : ∀ xs i, (fun k => playLists L k xs i) = xs.foldr consSeq (fun k => playLists L k [] i) := by
    intro xs i
    induction xs with
    | nil => rfl
    | cons x xs ih => rw [hcons, ih]; rfl
  have hnil : ∀ i, (fun k => playLists L k [] i) = fun k => playLists L k (L i) (i + 1) := by
    intro i
    obtain ⟨x, xs, hx⟩ := List.exists_cons_of_ne_nil (hL i)
    funext k
    cases k <;> simp [playLists, hx]
  exact ⟨fun i k => playLists L k [] i, fun i => (hnil i).trans (hlist (L i) (i + 1))⟩

/-! ## The built-in strategies -/

section
variable {ρ Seed : Type} {R : Rng ρ Seed}

theorem randomWalk_obeys : Obeys g (RandomWalk R) anyAlternative := by
  intro st a p d _ hne
  obtain ⟨e, he, h⟩ := randomWalk_chooses (R := R) st a p d hne
  exact ⟨e, _, Prod.ext h rfl, he⟩

theorem depthBounded_obeys (m : Nat) : Obeys g (DepthBounded R m) (depthAllowance m) := by
  intro st a p d _ hne
  obtain ⟨e, he, h, h2⟩ := depthBounded_spec (R := R) m st a p d hne
  refine ⟨e, _, Prod.ext h rfl, he, fun hd => ?_⟩
  by_cases hx : ∃ e' ∈ p.rhs, AllTerminal e'
  · exact .inl (h2 hd hx)
  · exact .inr fun e' he' ha => hx ⟨e', he', ha⟩

theorem sum_zero_iff : ∀ {l : List Nat}, l.sum = 0 ↔ ∀ w ∈ l, w = 0
  | [] => by simp
  | x :: l => by simp [Nat.add_eq_zero_iff, sum_zero_iff (l := l)]

theorem altWeight_eq (x y : Nat) (p : Production) : p.rhs.map (altWeight x y p) = fillWeights x y p := by
  rw [fillWeights_eq]
  apply List.map_congr_left
  intro e _
  unfold altWeight
  by_cases h : p.lhs ∈ e.terms <;> simp [h]

theorem weighted_obeys {checked : Bool} {x y : Nat} (hs : ∀ p ∈ g.productions, (p.rhs.map (altWeight x y p)).sum < 2 ^ 32) :
    Obeys g (Weighted R checked x y) (weightAllowance x y) := by
  intro st a p d hp hne
  have hs' := hs p hp
  rw [altWeight_eq] at hs'
  have hsum : sumU32 checked (fillWeights x y p) = some (fillWeights x y p).sum := by unfold sumU32; rw [if_pos hs']
  by_cases h0 : (fillWeights x y p).sum = 0
  · obtain ⟨i, rng', h1, h2⟩ := randomIndex_pos (R := R) st (n := p.rhs.length) (List.length_pos_iff.2 hne)
    refine ⟨p.rhs[i], rng', ?_, List.getElem_mem _, .inr fun e' he' => ?_⟩
    · simp only [Weighted, weightedRandomIndex, hsum, if_pos h0, h1, getExpression_lt h2]
    · rw [← altWeight_eq, sum_zero_iff] at h0
      exact h0 _ (List.mem_map.2 ⟨e', he', rfl⟩)
  · obtain ⟨i, h, h1, h2⟩ := weighted_spec (R := R) st a p d hsum h0
    refine ⟨p.rhs[i], _, h2, List.getElem_mem _, .inl ?_⟩
    obtain ⟨h3, h4, h5⟩ := (selectLoop_eq _ _ _).1 h1
    rw [List.take_add_one, List.sum_append, List.getElem?_eq_getElem h3] at h5
    simp only [Option.toList_some, List.sum_cons, List.sum_nil] at h5
    have : (fillWeights x y p)[i] = altWeight x y p p.rhs[i] := by simp [← altWeight_eq]
    omega

end

theorem randomIndex_steer (k n : Nat) (st : Nat → Nat) (h : k < n) : randomIndex seqRng (consSeq k st) n = (some k, st) := by
  unfold randomIndex
  rw [if_neg (by omega)]
  simp only [seqRng, consSeq, Nat.mod_eq_of_lt h]

theorem randomWalk_steerable : Steerable g (RandomWalk seqRng) anyAlternative consSeq := by
  intro a p d e _ he
  obtain ⟨i, hi, rfl⟩ := List.mem_iff_getElem.1 he
  refine ⟨i, fun st => ?_⟩
  simp only [RandomWalk, randomIndex_steer _ _ _ hi, getExpression_lt hi]

theorem pickFrom_steer {buf : List Nat} {n i : Nat} (h : i ∈ buf ∨ (buf = [] ∧ i < n)) :
    ∃ k, ∀ st, pickFrom seqRng (consSeq k st) buf n = (some i, st) := by
  rcases h with h | ⟨rfl, h⟩
  · obtain ⟨k, hk, rfl⟩ := List.mem_iff_getElem.1 h
    refine ⟨k, fun st => ?_⟩
    unfold pickFrom
    rw [if_neg (by simp; exact List.ne_nil_of_mem h), randomIndex_steer _ _ _ hk]
    simp [hk]
  · exact ⟨i, fun st => by simp [pickFrom, randomIndex_steer _ _ _ h]⟩

theorem depthBounded_steerable (m : Nat) : Steerable g (DepthBounded seqRng m) (depthAllowance m) consSeq := by
  rintro a p d e _ ⟨he, hA⟩
  obtain ⟨i, hi, rfl⟩ := List.mem_iff_getElem.1 he
  have hmem := mem_indicesWhere (fun _ e => expressionAllTerminals e) p.rhs 0
  have : ∃ k, ∀ st, pickFrom seqRng (consSeq k st) (if m ≤ d then indicesWhere (fun _ e => expressionAllTerminals e) p.rhs 0
      else List.range p.rhs.length) p.rhs.length = (some i, st) := by
    apply pickFrom_steer
    by_cases hd : m ≤ d
    · rw [if_pos hd]
      rcases hA hd with h | h
      · exact .inl ((hmem i).2 ⟨i, p.rhs[i], by simp, by simp [hi], (expressionAllTerminals_iff _).2 h⟩)
      · refine .inr ⟨?_, hi⟩
        rw [List.eq_nil_iff_forall_not_mem]
        intro j hj
        obtain ⟨j', e, _, h1, h2⟩ := (hmem j).1 hj
        exact h e (List.mem_of_getElem? h1) ((expressionAllTerminals_iff _).1 h2)
    · rw [if_neg hd]; exact .inl (List.mem_range.2 hi)
  obtain ⟨k, hk⟩ := this
  refine ⟨k, fun st => ?_⟩
  simp only [DepthBounded, hk, getExpression_lt hi]

theorem weighted_steerable {checked : Bool} {x y : Nat} (hs : ∀ p ∈ g.productions, (p.rhs.map (altWeight x y p)).sum < 2 ^ 32) :
    Steerable g (Weighted seqRng checked x y) (weightAllowance x y) consSeq := by
  rintro a p d e hp ⟨he, hA⟩
  obtain ⟨i, hi, rfl⟩ := List.mem_iff_getElem.1 he
  have hs' := hs p hp
  rw [altWeight_eq] at hs'
  have hsum : sumU32 checked (fillWeights x y p) = some (fillWeights x y p).sum := by unfold sumU32; rw [if_pos hs']
  have hlen : i < (fillWeights x y p).length := by rw [fillWeights_length]; exact hi
  have hw : (fillWeights x y p)[i] = altWeight x y p p.rhs[i] := by simp [← altWeight_eq]
  have htake : ((fillWeights x y p).take (i + 1)).sum = ((fillWeights x y p).take i).sum + (fillWeights x y p)[i] := by
    rw [List.take_add_one, List.sum_append, List.getElem?_eq_getElem hlen]; simp
  have hle := take_sum_le (fillWeights x y p) (i + 1)
  by_cases h0 : (fillWeights x y p).sum = 0
  · refine ⟨i, fun st => ?_⟩
    simp only [Weighted, weightedRandomIndex, hsum, if_pos h0, randomIndex_steer _ _ _ hi, getExpression_lt hi]
  · have hpos : 0 < altWeight x y p p.rhs[i] := by
      rcases hA with h | h
      · exact h
      · refine absurd ?_ h0
        rw [← altWeight_eq, sum_zero_iff]
        intro w hw
        obtain ⟨e, he, rfl⟩ := List.mem_map.1 hw
        exact h e he
    refine ⟨((fillWeights x y p).take i).sum, fun st => ?_⟩
    have hsel : selectLoop (fillWeights x y p) (((fillWeights x y p).take i).sum) 0 = some i :=
      (selectLoop_eq _ _ _).2 ⟨hlen, Nat.le_refl _, by omega⟩
    have hmod : ((fillWeights x y p).take i).sum % (fillWeights x y p).sum = ((fillWeights x y p).take i).sum :=
      Nat.mod_eq_of_lt (by omega)
    simp only [Weighted, weightedRandomIndex, hsum, if_neg h0, seqRng, consSeq, hmod, hsel, getExpression_lt hi]

theorem traverse_obeys_no_panic (hS : Obeys g S A) : ∀ (N : Nat) (n : Str) (d : Nat) (st : σ),
    traverse g S (acceptAll σ) N n d st ≠ .panic
  | 0, _, _, _ => by simp [traverse]
  | N + 1, n, d, st => by
    cases hf : findProduction n g.productions 0 with
    | none => rw [traverse_undeclared hf]; simp
    | some x =>
      obtain ⟨a, p⟩ := x
      by_cases hn : productionHasNoChoice p = true
      · rw [traverse_noChoice hf hn]; simp
      · have hn' : ¬ NoChoice p := by rwa [noChoice_iff] at hn
        obtain ⟨e, st1, hc, hA⟩ := hS st a p d (isFirst_mem (isFirst_of_find hf)) (rhs_ne_of_choice hn')
        rw [traverse_choose hf hn, hc]
        simp only
        have := evalTerms_panic (trav := fun nt st => traverse g S (acceptAll σ) N nt (d + 1) st)
          (fun nt st => traverse_obeys_no_panic hS N nt _ st) e.terms [] st1
        split
        · simp [acceptAll]
        · exact this

/-! ## Calls of `generate_seeded_with_strategy` -/

theorem generate_cases {σ : Type} (g : Grammar) (S : Strategy σ) :
    (∃ start w, g.startingTerm = some (.nonterminal start) ∧ Derives g (.nonterminal start) w ∧
      ∀ fuel st, g.generateSeededWithStrategy S fuel st = traverse g S (acceptAll σ) fuel start 0 st) ∨
    ((¬ ∃ start w, g.startingTerm = some (.nonterminal start) ∧ Derives g (.nonterminal start) w) ∧
      ∀ fuel st, ∃ r, g.generateSeededWithStrategy S fuel st = .done r st) := by
  obtain ⟨b, h1, h2⟩ := terminates_spec g
  cases b with
  | false =>
    refine .inr ⟨?_, fun fuel st => ⟨.error (.generateError msgNonterminating), ?_⟩⟩
    · rintro ⟨start, w, h3, h4⟩
      have := h2.2 (.inr ⟨_, h3, w, h4⟩)
      cases this
    · unfold Grammar.generateSeededWithStrategy Grammar.generateWith; rw [h1]
  | true =>
    cases hp : g.productions with
    | nil =>
      refine .inr ⟨?_, fun fuel st => ⟨.error (.generateError msgNoProduction), ?_⟩⟩
      · rintro ⟨start, w, h3, h4⟩; simp [Grammar.startingTerm, hp] at h3
      · unfold Grammar.generateSeededWithStrategy Grammar.generateWith; rw [h1, hp]
    | cons p ps =>
      cases hl : p.lhs with
      | terminal s =>
        refine .inr ⟨?_, fun fuel st => ⟨.error (.generateError (msgTerminalLhs p)), ?_⟩⟩
        · rintro ⟨start, w, h3, h4⟩; simp [Grammar.startingTerm, hp, hl] at h3
        · unfold Grammar.generateSeededWithStrategy Grammar.generateWith; rw [h1, hp]; simp only [hl]
      | nonterminal n =>
        rcases h2.1 rfl with h3 | ⟨S', h3, w, h4⟩
        · simp [hp] at h3
        · simp [Grammar.startingTerm, hp, hl] at h3
          subst h3
          refine .inl ⟨n, w, by simp [Grammar.startingTerm, hp, hl], h4, fun fuel st => ?_⟩
          unfold Grammar.generateSeededWithStrategy Grammar.generateWith; rw [h1, hp]; simp only [hl]
          rw [show acceptAll σ = fun st _ _ => (true, st) from rfl]

theorem generate_diverges {σ : Type} {g : Grammar} {S : Strategy σ} {A : Allowance} (hS : Obeys g S A) {st : σ}
    (h : ∀ fuel, g.generateSeededWithStrategy S fuel st = .fuel) : StartEndless g A := by
  rcases generate_cases g S with ⟨start, w, h1, h2, h3⟩ | ⟨_, h3⟩
  · exact ⟨start, w, h1, h2, endless_of_diverges hS fun N => by rw [← h3, h N]⟩
  · obtain ⟨r, h4⟩ := h3 0 st
    rw [h 0] at h4; cases h4

theorem diverging_generate {g : Grammar} {S : Strategy (Nat → Nat)} {A : Allowance} (hS : Steerable g S A consSeq)
    (h : StartEndless g A) : ∃ st, ∀ fuel, g.generateSeededWithStrategy S fuel st = .fuel := by
  obtain ⟨start, w, h1, h2, h3⟩ := h
  rcases generate_cases g S with ⟨start', w', h1', h2', h3'⟩ | ⟨h4, _⟩
  · rw [h1] at h1'; injection h1' with h1'; injection h1' with h1'; subst h1'
    obtain ⟨st, hst⟩ := diverges_of_endless hS consSeq_limit h3
    exact ⟨st, fun fuel => by rw [h3', hst]⟩
  · exact absurd ⟨start, w, h1, h2⟩ h4

theorem generate_bounded {g : Grammar} {A : Allowance} (hmem : ∀ {d p e}, A d p e → e ∈ p.rhs) (h : ¬ StartEndless g A) :
    ∃ fuel, ∀ (σ : Type) (S : Strategy σ), Obeys g S A → ∀ st, ∃ r st', g.generateSeededWithStrategy S fuel st = .done r st' := by
  rcases Classical.em (∃ start w, g.startingTerm = some (.nonterminal start) ∧ Derives g (.nonterminal start) w) with
    ⟨start, w, h1, h2⟩ | hno
  · obtain ⟨N, hN⟩ := bounded_of_not_endless hmem (d := 0) (n := start) fun he => h ⟨start, w, h1, h2, he⟩
    refine ⟨N, fun σ S hS st => ?_⟩
    rcases generate_cases g S with ⟨start', w', h1', h2', h3'⟩ | ⟨h4, _⟩
    · rw [h1] at h1'; injection h1' with h1'; injection h1' with h1'; subst h1'
      rw [h3']
      cases hr : traverse g S (acceptAll σ) N start 0 st with
      | fuel => exact absurd hr (hN σ S hS st)
      | panic => exact absurd hr (traverse_obeys_no_panic hS _ _ _ _)
      | done r st' => exact ⟨r, st', rfl⟩
    · exact absurd ⟨start, w, h1, h2⟩ h4
  · refine ⟨0, fun σ S hS st => ?_⟩
    rcases generate_cases g S with ⟨start', w', h1', h2', h3'⟩ | ⟨_, h4⟩
    · exact absurd ⟨_, _, h1', h2'⟩ hno
    · obtain ⟨r, hr⟩ := h4 0 st
      exact ⟨r, st, hr⟩

/-! ## Paths and recursion -/

theorem finishable_of_expansion {ts w L} (h : Expansion g ts w L) :
    ∀ k, .nonterminal k ∈ ts → ∀ d, Finishable g anyAlternative d k := by
  induction h with
  | nil => simp
  | terminal _ ih => intro k hk; exact ih k (by simpa using hk)
  | undeclared hd _ ih =>
    intro k hk d
    rcases List.mem_cons.1 hk with hk | hk
    · injection hk with hk; subst hk; exact .undeclared hd
    · exact ih k hk d
  | nonterminal hp hn he _ _ ih1 ih2 =>
    intro k hk d
    rcases List.mem_cons.1 hk with hk | hk
    · injection hk with hk; subst hk; exact .expand hp hn he fun m hm => ih1 m hm (d + 1)
    · exact ih2 k hk d

theorem exists_repeat {α : Type} (f : Nat → α) (l : List α) (h : ∀ i, f i ∈ l) : ∃ i j, i < j ∧ f i = f j := by
  apply Classical.byContradiction
  intro hno
  have hinj : ∀ i j, i < j → f i ≠ f j := fun i j hij he => hno ⟨i, j, hij, he⟩
  have hnd : ((List.range (l.length + 1)).map f).Nodup := by
    rw [List.nodup_iff_pairwise_ne, List.pairwise_map]
    exact (List.pairwise_lt_range).imp fun h => hinj _ _ h
  have := (hnd.subperm (l₂ := l) (by intro x hx; obtain ⟨i, _, rfl⟩ := List.mem_map.1 hx; exact h i)).length_le
  simp at this
  omega

theorem path_iff_recursion {start : Str} :
    (∃ ns : Nat → Str, ns 0 = start ∧ ∀ i, Refers g (ns i) (ns (i + 1))) ↔
      ∃ c, Relation.ReflTransGen (Refers g) start c ∧ Relation.TransGen (Refers g) c c := by
  constructor
  · rintro ⟨ns, rfl, hns⟩
    obtain ⟨i, j, hij, he⟩ := exists_repeat ns (g.productions.map fun p => p.lhs.name) (fun i => by
      obtain ⟨p, hp, _⟩ := hns i
      refine List.mem_map.2 ⟨p, isFirst_mem hp, ?_⟩
      obtain ⟨_, _, _, hl, _⟩ := hp
      rw [hl]; rfl)
    refine ⟨ns i, ?_, ?_⟩
    · clear hij he
      induction i with
      | zero => exact .refl
      | succ i ih => exact ih.tail (hns i)
    · have : ∀ k, Relation.TransGen (Refers g) (ns i) (ns (i + k + 1)) := by
        intro k
        induction k with
        | zero => exact .single (hns i)
        | succ k ih => exact ih.tail (hns _)
      have h := this (j - i - 1)
      rw [show i + (j - i - 1) + 1 = j by omega, ← he] at h
      exact h
  · rintro ⟨c, h1, h2⟩
    exact infinite_path (P := fun x => Relation.TransGen (Refers g) x c) (fun x hx => by
      obtain ⟨y, h3, h4⟩ := Relation.TransGen.head'_iff.1 hx
      exact ⟨y, Relation.TransGen.trans_right h4 h2, h3⟩) (Relation.TransGen.trans_right h1 h2)

theorem endless_iff_recursion (hfin : ∀ n, ∃ w L, Expansion g [.nonterminal n] w L) {start : Str} :
    Endless g anyAlternative 0 start ↔ ∃ c, Relation.ReflTransGen (Refers g) start c ∧ Relation.TransGen (Refers g) c c := by
  have hl : ∀ d n m, Leads g anyAlternative d n m ↔ Refers g n m := by
    intro d n m
    constructor
    · rintro ⟨p, e, b, af, hp, _, hA, he, _⟩
      exact ⟨p, hp, e, hA, by rw [he]; simp⟩
    · rintro ⟨p, hp, e, he, hm⟩
      obtain ⟨b, af, h⟩ := List.append_of_mem hm
      refine ⟨p, e, b, af, hp, ?_, he, h, fun k _ => ?_⟩
      · rintro (h0 | h0)
        · rw [h0] at he; simp at he
        · rw [h0] at he; simp at he; subst he; simp at hm
      · obtain ⟨w, L, hx⟩ := hfin k
        exact finishable_of_expansion hx k (by simp) _
  rw [← path_iff_recursion]
  simp only [Endless, hl]

end Bnf
