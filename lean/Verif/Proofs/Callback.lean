import Verif.Proofs.Endless
import Verif.Spec.Callback

/-! # Generation with callbacks -/

set_option autoImplicit false

namespace Bnf
open Spec

variable {σ : Type} {g : Grammar} {S : Strategy σ} {A : Allowance} {acc : Str → Str → Bool}

theorem yields_append {d ts us v w} (h : Yields g A acc d ts v) (h' : Yields g A acc d us w) : Yields g A acc d (ts ++ us) (v ++ w) := by
  induction h with
  | nil => exact h'
  | terminal _ ih => rw [List.cons_append, List.append_assoc]; exact .terminal (ih h')
  | undeclared hd _ ih => rw [List.cons_append, List.append_assoc]; exact .undeclared hd (ih h')
  | expand h1 h2 h3 h4 h5 _ _ ih => rw [List.cons_append, List.append_assoc]; exact .expand h1 h2 h3 h4 h5 (ih h')

theorem evalTerms_yields {trav : Str → σ → GenRes σ} {d : Nat}
    (ht : ∀ n st s st', trav n st = .done (.ok s) st' → Yields g A acc d [.nonterminal n] s) : ∀ (ts : List Term) (r : Str) (st : σ) {s st'},
    evalTerms trav ts r st = .done (.ok s) st' → ∃ w, s = r ++ w ∧ Yields g A acc d ts w
  | [], r, st, s, st', h => by
    simp [evalTerms] at h
    exact ⟨[], by simp [h.1], .nil⟩
  | .terminal t :: ts, r, st, s, st', h => by
    rw [evalTerms] at h
    obtain ⟨w, h1, h2⟩ := evalTerms_yields ht ts _ _ h
    exact ⟨t ++ w, by simp [h1], .terminal h2⟩
  | .nonterminal n :: ts, r, st, s, st', h => by
    rw [evalTerms] at h
    split at h
    · rename_i s1 st1 h1
      obtain ⟨w, h2, h3⟩ := evalTerms_yields ht ts _ _ h
      exact ⟨s1 ++ w, by simp [h2], yields_append (ht _ _ _ _ h1) h3⟩
    · simp at h
    · cases h
    · cases h

theorem traverse_yields (hS : Obeys g S A) : ∀ (N : Nat) {n d st s st'},
    traverse g S (pureCallback acc) N n d st = .done (.ok s) st' → Yields g A acc d [.nonterminal n] s
  | 0, _, _, _, _, _, h => by simp [traverse] at h
  | N + 1, n, d, st, s, st', h => by
    cases hf : findProduction n g.productions 0 with
    | none =>
      rw [traverse_undeclared hf] at h
      simp at h
      have := Yields.undeclared (A := A) (acc := acc) (d := d) (undeclared_of_find hf) .nil
      rw [List.append_nil, h.1] at this
      rw [h.1]; exact this
    | some x =>
      obtain ⟨a, p⟩ := x
      by_cases hn : productionHasNoChoice p = true
      · rw [traverse_noChoice hf hn] at h; simp at h
      · have hn' : ¬ NoChoice p := by rwa [noChoice_iff] at hn
        rw [traverse_choose hf hn] at h
        have hp := isFirst_of_find hf
        obtain ⟨e, st1, hc, hA⟩ := hS st a p d (isFirst_mem hp) (rhs_ne_of_choice hn')
        rw [hc] at h
        simp only at h
        split at h
        · rename_i result st2 h1
          change (if acc n result = true then GenRes.done (.ok result) st2 else traverse g S (pureCallback acc) N n d st2) = _ at h
          by_cases hacc : acc n result = true
          · rw [if_pos hacc] at h
            simp at h
            obtain ⟨rfl, rfl⟩ := h
            obtain ⟨w, h2, h3⟩ := evalTerms_yields (fun n st s st' h => traverse_yields hS N h) _ _ _ h1
            rw [List.nil_append] at h2
            subst h2
            have := Yields.expand hp hn' hA h3 hacc (.nil (d := d))
            rwa [List.append_nil] at this
          · rw [if_neg hacc] at h
            exact traverse_yields hS N h
        · rename_i h1; exact absurd h (h1 _ _)

theorem yields_of_each {d : Nat} : ∀ (ts : List Term), (∀ k, .nonterminal k ∈ ts → ∃ v, Yields g A acc d [.nonterminal k] v) →
    ∃ u, Yields g A acc d ts u
  | [], _ => ⟨[], .nil⟩
  | .terminal t :: ts, h => by
    obtain ⟨u, hu⟩ := yields_of_each ts fun k hk => h k (by simp [hk])
    exact ⟨_, .terminal hu⟩
  | .nonterminal n :: ts, h => by
    obtain ⟨u, hu⟩ := yields_of_each ts fun k hk => h k (by simp [hk])
    obtain ⟨v, hv⟩ := h n (by simp)
    exact ⟨_, yields_append hv hu⟩

/-- A call that does not return: something can be rejected, or it leads to another one, one level deeper. -/
theorem endlessWith_step (hS : Obeys g S A) {n d st} (h : ∀ N, traverse g S (pureCallback acc) N n d st = .fuel) :
    Rejectable g A acc d n ∨
      ∃ m st', LeadsTo g A acc d n m ∧ ∀ N, traverse g S (pureCallback acc) N m (d + 1) st' = .fuel := by
  cases hf : findProduction n g.productions 0 with
  | none => have := h 1; rw [traverse_undeclared hf] at this; cases this
  | some x =>
    obtain ⟨a, p⟩ := x
    by_cases hn : productionHasNoChoice p = true
    · have := h 1; rw [traverse_noChoice hf hn] at this; cases this
    · have hn' : ¬ NoChoice p := by rwa [noChoice_iff] at hn
      have hp := isFirst_of_find hf
      obtain ⟨e, st1, hc, hA⟩ := hS st a p d (isFirst_mem hp) (rhs_ne_of_choice hn')
      by_cases hev : ∀ N, evalTerms (fun nt st => traverse g S (pureCallback acc) N nt (d + 1) st) e.terms [] st1 = .fuel
      · obtain ⟨b, m, af, st', h1, h2, h3⟩ := evalTerms_endless
          (trav := fun N nt st => traverse g S (pureCallback acc) N nt (d + 1) st)
          (fun i j hij n st hne => traverse_more hij hne) _ _ _ hev
        obtain ⟨u, hu⟩ := yields_of_each (g := g) (A := A) (acc := acc) (d := d + 1) b fun k hk => by
          obtain ⟨N, st1, s, st2, h4⟩ := h3 k hk
          exact ⟨s, traverse_yields hS N h4⟩
        exact .inr ⟨m, st', ⟨p, e, b, af, u, hp, hn', hA, h1, hu⟩, h2⟩
      · obtain ⟨N, hN⟩ := Classical.not_forall.1 hev
        have h1 := h (N + 1)
        rw [traverse_choose hf hn, hc] at h1
        simp only at h1
        split at h1
        · rename_i result st2 h2
          change (if acc n result = true then GenRes.done (.ok result) st2 else traverse g S (pureCallback acc) N n d st2) = _ at h1
          by_cases hacc : acc n result = true
          · rw [if_pos hacc] at h1; cases h1
          · obtain ⟨w, h3, h4⟩ := evalTerms_yields (fun n st s st' h => traverse_yields hS N h) _ _ _ h2
            rw [List.nil_append] at h3
            subst h3
            exact .inl ⟨p, e, _, hp, hn', hA, h4, by simpa using hacc⟩
        · exact absurd h1 hN

/-- One step down with the depth. -/
def BelowWith (g : Grammar) (A : Allowance) (acc : Str → Str → Bool) (y x : Nat × Str) : Prop :=
  y.1 = x.1 + 1 ∧ LeadsTo g A acc x.1 x.2 y.2

theorem path_of_below {f : Nat → Nat × Str} (h : ∀ i, BelowWith g A acc (f (i + 1)) (f i)) :
    ∃ ns : Nat → Str, ns 0 = (f 0).2 ∧ ∀ i, LeadsTo g A acc ((f 0).1 + i) (ns i) (ns (i + 1)) := by
  have hd : ∀ i, (f i).1 = (f 0).1 + i := by
    intro i
    induction i with
    | zero => rfl
    | succ i ih => rw [(h i).1, ih]; omega
  refine ⟨fun i => (f i).2, rfl, fun i => ?_⟩
  rw [← hd i]
  exact (h i).2

theorem endlessWith_of_diverges (hS : Obeys g S A) {n d st} (h : ∀ N, traverse g S (pureCallback acc) N n d st = .fuel) :
    EndlessWith g A acc d n := by
  by_cases hr : ReachesReject g A acc d n
  · exact .inl hr
  · obtain ⟨f, h0, hf⟩ := infinite_path (α := (Nat × Str) × σ)
      (P := fun x => (∀ N, traverse g S (pureCallback acc) N x.1.2 x.1.1 x.2 = .fuel) ∧ ¬ ReachesReject g A acc x.1.1 x.1.2)
      (Rel := fun x y => BelowWith g A acc y.1 x.1) (x := ((d, n), st))
      (fun x ⟨hx, hnr⟩ => by
        rcases endlessWith_step hS hx with h1 | ⟨m, st', h1, h2⟩
        · exact absurd (.here h1) hnr
        · exact ⟨((x.1.1 + 1, m), st'), ⟨h2, fun hc => hnr (.step h1 hc)⟩, rfl, h1⟩) ⟨h, hr⟩
    have := path_of_below (f := fun i => (f i).1) hf
    rw [h0] at this
    exact .inr this

/-! ## Bounded otherwise -/

theorem acc_of_no_path {d n} (h : ¬ ∃ ns : Nat → Str, ns 0 = n ∧ ∀ i, LeadsTo g A acc (d + i) (ns i) (ns (i + 1))) :
    Acc (BelowWith g A acc) (d, n) := by
  apply Classical.byContradiction
  intro hacc
  obtain ⟨f, h0, hf⟩ := infinite_path (P := fun x => ¬ Acc (BelowWith g A acc) x) (Rel := fun x y => BelowWith g A acc y x)
    (fun x hx => by
      apply Classical.byContradiction
      intro hno
      exact hx ⟨_, fun y hy => Classical.byContradiction fun hny => hno ⟨y, hny, hy⟩⟩) hacc
  have := path_of_below (f := f) hf
  rw [h0] at this
  exact h this

theorem boundedWith_of_not_endless (hmem : ∀ {d p e}, A d p e → e ∈ p.rhs) {d n} (h : ¬ EndlessWith g A acc d n) :
    ∃ N, ∀ (σ : Type) (S : Strategy σ), Obeys g S A → ∀ st, traverse g S (pureCallback acc) N n d st ≠ .fuel := by
  have key : ∀ x : Nat × Str, Acc (BelowWith g A acc) x → ¬ ReachesReject g A acc x.1 x.2 →
      ∃ N, ∀ (σ : Type) (S : Strategy σ), Obeys g S A → ∀ st, traverse g S (pureCallback acc) N x.2 x.1 st ≠ .fuel := by
    intro x hx
    induction hx with
    | intro x _ ih =>
      intro hnr
      obtain ⟨d, n⟩ := x
      cases hf : findProduction n g.productions 0 with
      | none => exact ⟨1, fun σ S _ st => by rw [traverse_undeclared hf]; simp⟩
      | some y =>
        obtain ⟨a, p⟩ := y
        have hp := isFirst_of_find hf
        obtain ⟨N, hN⟩ := exists_bound
          (P := fun k N => LeadsTo g A acc d n k → ∀ (σ : Type) (S : Strategy σ), Obeys g S A → ∀ st,
            traverse g S (pureCallback acc) N k (d + 1) st ≠ .fuel)
          (fun k i j hij h hl σ S hS st => by rw [traverse_more hij (h hl σ S hS st)]; exact h hl σ S hS st)
          ((p.rhs.flatMap fun e => e.terms).map Term.name)
          (fun k _ => by
            by_cases hl : LeadsTo g A acc d n k
            · obtain ⟨N, hN⟩ := ih (d + 1, k) ⟨rfl, hl⟩ (fun hc => hnr (.step hl hc))
              exact ⟨N, fun _ => hN⟩
            · exact ⟨0, fun h => absurd h hl⟩)
        refine ⟨N + 1, fun σ S hS st => ?_⟩
        by_cases hn : productionHasNoChoice p = true
        · rw [traverse_noChoice hf hn]; simp
        · have hn' : ¬ NoChoice p := by rwa [noChoice_iff] at hn
          obtain ⟨e, st1, hc, hA⟩ := hS st a p d (isFirst_mem hp) (rhs_ne_of_choice hn')
          rw [traverse_choose hf hn, hc]
          have := evalTerms_bounded (trav := fun nt st => traverse g S (pureCallback acc) N nt (d + 1) st)
            (Q := fun k => ∃ v, Yields g A acc (d + 1) [.nonterminal k] v) (fun k st s st' h => ⟨s, traverse_yields hS N h⟩) e.terms [] st1
            (fun b m af he hb => hN m
              (List.mem_map.2 ⟨.nonterminal m, List.mem_flatMap.2 ⟨e, hmem hA, by rw [he]; simp⟩, rfl⟩)
              (by
                obtain ⟨u, hu⟩ := yields_of_each b hb
                exact ⟨p, e, b, af, u, hp, hn', hA, he, hu⟩) σ S hS)
          simp only
          split
          · rename_i result st2 h2
            change (if acc n result = true then GenRes.done (.ok result) st2 else traverse g S (pureCallback acc) N n d st2) ≠ _
            by_cases hacc : acc n result = true
            · rw [if_pos hacc]; simp
            · obtain ⟨w, h3, h4⟩ := evalTerms_yields (fun n st s st' h => traverse_yields hS N h) _ _ _ h2
              rw [List.nil_append] at h3
              subst h3
              exact absurd (.here ⟨p, e, _, hp, hn', hA, h4, by simpa using hacc⟩) hnr
          · exact this
  exact key (d, n) (acc_of_no_path fun hp => h (.inr hp)) fun hr => h (.inl hr)

/-! ## Everything can be brought about -/

theorem yields_steered {push : Nat → σ → σ} (hS : Steerable g S A push) {d ts w} (h : Yields g A acc d ts w) :
    ∃ (script : List Nat) (N : Nat), ∀ r st,
      evalTerms (fun nt st => traverse g S (pureCallback acc) N nt d st) ts r (script.foldr push st) = .done (.ok (r ++ w)) st := by
  induction h with
  | nil => exact ⟨[], 0, fun r st => by simp [evalTerms]⟩
  | @terminal d u ts w _ ih =>
    obtain ⟨sc, N, h1⟩ := ih
    exact ⟨sc, N, fun r st => by rw [evalTerms, h1]; simp⟩
  | @undeclared d n ts w hd _ ih =>
    obtain ⟨sc, N, h1⟩ := ih
    refine ⟨sc, N + 1, fun r st => ?_⟩
    rw [evalTerms, traverse_undeclared (find_of_undeclared hd)]
    simp only
    have e2 := h1 (r ++ n) st
    rw [evalTerms_more (trav := fun nt st => traverse g S (pureCallback acc) N nt d st)
      (fun nt st hne => traverse_more (Nat.le_succ _) hne) _ _ _ (by rw [e2]; simp), e2]
    simp
  | @expand d n p e v ts w hp hn hA _ hacc _ ih1 ih2 =>
    obtain ⟨a, hf⟩ := find_of_isFirst hp
    obtain ⟨i, hi⟩ := hS a p d e (isFirst_mem hp) hA
    obtain ⟨sc1, N1, h1⟩ := ih1
    obtain ⟨sc2, N2, h2⟩ := ih2
    have ht : ∀ st, traverse g S (pureCallback acc) (N1 + 1) n d ((i :: sc1).foldr push st) = .done (.ok v) st := by
      intro st
      rw [traverse_choose hf (by rw [noChoice_iff]; exact hn), List.foldr_cons, hi]
      simp only [h1, pureCallback, List.nil_append, hacc, if_true]
    refine ⟨(i :: sc1) ++ sc2, max (N1 + 1) N2, fun r st => ?_⟩
    rw [evalTerms, List.foldr_append]
    have e1 := ht (sc2.foldr push st)
    rw [traverse_more (Nat.le_max_left _ _) (by rw [e1]; simp), e1]
    simp only
    have e2 := h2 (r ++ v) st
    rw [evalTerms_more (trav := fun nt st => traverse g S (pureCallback acc) N2 nt d st)
      (fun nt st hne => traverse_more (Nat.le_max_right _ _) hne) _ _ _ (by rw [e2]; simp), e2]
    simp

/-- One step down a path, when the next call does not return with fuel `N`. -/
theorem leadsTo_steered {push : Nat → σ → σ} (hS : Steerable g S A push) {d n m} (h : LeadsTo g A acc d n m) :
    ∃ L : List Nat, L ≠ [] ∧ ∀ st N, (traverse g S (pureCallback acc) N m (d + 1) st = .fuel) →
      traverse g S (pureCallback acc) (N + 1) n d (L.foldr push st) = .fuel := by
  obtain ⟨p, e, b, af, u, hp, hn, hA, he, hb⟩ := h
  obtain ⟨a, hf⟩ := find_of_isFirst hp
  obtain ⟨k, hk⟩ := hS a p _ e (isFirst_mem hp) hA
  obtain ⟨sc, M, h1⟩ := yields_steered hS hb
  refine ⟨k :: sc, by simp, fun st N hN => ?_⟩
  rw [traverse_choose hf (by rw [noChoice_iff]; exact hn), List.foldr_cons, hk]
  have hev : evalTerms (fun nt st => traverse g S (pureCallback acc) N nt (d + 1) st) e.terms [] (sc.foldr push st) = .fuel := by
    rw [he, evalTerms_append]
    by_cases hfu : evalTerms (fun nt st => traverse g S (pureCallback acc) N nt (d + 1) st) b [] (sc.foldr push st) = .fuel
    · rw [hfu]
    · have e1 := h1 [] st
      have e2 := evalTerms_more (trav := fun nt st => traverse g S (pureCallback acc) N nt (d + 1) st)
        (trav' := fun nt st => traverse g S (pureCallback acc) (max N M) nt (d + 1) st)
        (fun nt st hne => traverse_more (Nat.le_max_left _ _) hne) _ _ _ hfu
      have e3 := evalTerms_more (trav := fun nt st => traverse g S (pureCallback acc) M nt (d + 1) st)
        (trav' := fun nt st => traverse g S (pureCallback acc) (max N M) nt (d + 1) st)
        (fun nt st hne => traverse_more (Nat.le_max_right _ _) hne) _ _ _ (by rw [e1]; simp)
      rw [← e2, e3, e1]
      simp only [evalTerms, hN]
  simp only [hev]

/-- One rejected round. -/
theorem rejectable_steered {push : Nat → σ → σ} (hS : Steerable g S A push) {d n} (h : Rejectable g A acc d n) :
    ∃ L : List Nat, L ≠ [] ∧ ∀ st N, (traverse g S (pureCallback acc) N n d st = .fuel) →
      traverse g S (pureCallback acc) (N + 1) n d (L.foldr push st) = .fuel := by
  obtain ⟨p, e, v, hp, hn, hA, hv, hrej⟩ := h
  obtain ⟨a, hf⟩ := find_of_isFirst hp
  obtain ⟨k, hk⟩ := hS a p _ e (isFirst_mem hp) hA
  obtain ⟨sc, M, h1⟩ := yields_steered hS hv
  refine ⟨k :: sc, by simp, fun st N hN => ?_⟩
  rw [traverse_choose hf (by rw [noChoice_iff]; exact hn), List.foldr_cons, hk]
  simp only
  by_cases hfu : evalTerms (fun nt st => traverse g S (pureCallback acc) N nt (d + 1) st) e.terms [] (sc.foldr push st) = .fuel
  · rw [hfu]
  · have e1 := h1 [] st
    have e2 := evalTerms_more (trav := fun nt st => traverse g S (pureCallback acc) N nt (d + 1) st)
      (trav' := fun nt st => traverse g S (pureCallback acc) (max N M) nt (d + 1) st)
      (fun nt st hne => traverse_more (Nat.le_max_left _ _) hne) _ _ _ hfu
    have e3 := evalTerms_more (trav := fun nt st => traverse g S (pureCallback acc) M nt (d + 1) st)
      (trav' := fun nt st => traverse g S (pureCallback acc) (max N M) nt (d + 1) st)
      (fun nt st hne => traverse_more (Nat.le_max_right _ _) hne) _ _ _ (by rw [e1]; simp)
    rw [← e2, e3, e1]
    simp [pureCallback, hrej, hN]

theorem diverges_of_endlessWith {push : Nat → σ → σ} (hS : Steerable g S A push)
    (hlim : ∀ L : Nat → List Nat, (∀ i, L i ≠ []) → ∃ F : Nat → σ, ∀ i, F i = (L i).foldr push (F (i + 1))) {d n}
    (h : EndlessWith g A acc d n) : ∃ st, ∀ N, traverse g S (pureCallback acc) N n d st = .fuel := by
  have shift : ∀ {d n m} {L : List Nat} {st : σ}, (∀ st N, (traverse g S (pureCallback acc) N m (d + 1) st = .fuel) →
      traverse g S (pureCallback acc) (N + 1) n d (L.foldr push st) = .fuel) →
      (∀ N, traverse g S (pureCallback acc) N m (d + 1) st = .fuel) →
      ∀ N, traverse g S (pureCallback acc) N n d (L.foldr push st) = .fuel := by
    intro d n m L st h1 h2 N
    cases N with
    | zero => rfl
    | succ N => exact h1 _ _ (h2 N)
  rcases h with h | ⟨ns, rfl, hns⟩
  · induction h with
    | @here d n h =>
      obtain ⟨L, hL, h1⟩ := rejectable_steered hS h
      obtain ⟨F, hF⟩ := hlim (fun _ => L) fun _ => hL
      have : ∀ N i, traverse g S (pureCallback acc) N n d (F i) = .fuel := by
        intro N
        induction N with
        | zero => intro i; rfl
        | succ N ih => intro i; rw [hF i]; exact h1 _ _ (ih (i + 1))
      exact ⟨F 0, fun N => this N 0⟩
    | step hl _ ih =>
      obtain ⟨st, hst⟩ := ih
      obtain ⟨L, _, h1⟩ := leadsTo_steered hS hl
      exact ⟨_, shift h1 hst⟩
  · have hstep := fun i => leadsTo_steered hS (hns i)
    obtain ⟨L, hL⟩ : ∃ L : Nat → List Nat, ∀ i, L i ≠ [] ∧ ∀ st N,
        (traverse g S (pureCallback acc) N (ns (i + 1)) (d + i + 1) st = .fuel) →
        traverse g S (pureCallback acc) (N + 1) (ns i) (d + i) ((L i).foldr push st) = .fuel :=
      ⟨fun i => Classical.choose (hstep i), fun i => Classical.choose_spec (hstep i)⟩
    obtain ⟨F, hF⟩ := hlim L fun i => (hL i).1
    have : ∀ N i, traverse g S (pureCallback acc) N (ns i) (d + i) (F i) = .fuel := by
      intro N
      induction N with
      | zero => intro i; rfl
      | succ N ih => intro i; rw [hF i]; exact (hL i).2 _ _ (ih (i + 1))
    exact ⟨F 0, fun N => this N 0⟩

end Bnf

namespace Bnf
open Spec

/-! ## Strategies and callbacks that do the same, seen through a function of the states -/

/-- Apply a function to the state. -/
def GenRes.map {σ τ : Type} (π : σ → τ) : GenRes σ → GenRes τ
  | .fuel => .fuel
  | .panic => .panic
  | .done r st => .done r (π st)

section
variable {σ τ : Type} {π : σ → τ} {g : Grammar}

theorem evalTerms_map {trav : Str → σ → GenRes σ} {trav' : Str → τ → GenRes τ} (ht : ∀ nt st, (trav nt st).map π = trav' nt (π st)) :
    ∀ (ts : List Term) (r : Str) (st : σ), (evalTerms trav ts r st).map π = evalTerms trav' ts r (π st)
  | [], r, st => rfl
  | .terminal t :: ts, r, st => by rw [evalTerms, evalTerms]; exact evalTerms_map ht ts _ st
  | .nonterminal nt :: ts, r, st => by
    rw [evalTerms, evalTerms, ← ht]
    cases h : trav nt st with
    | fuel => rfl
    | panic => rfl
    | done x st' =>
      cases x with
      | error e => rfl
      | ok s => simp only [GenRes.map]; exact evalTerms_map ht ts _ st'

theorem traverse_map {S : Strategy σ} {S' : Strategy τ} {f : Callback σ} {f' : Callback τ} (I : σ → Prop)
    (hI : ∀ st a p d, I st → I (S.choose st a p d).2) (hIf : ∀ st n t, I st → I (f st n t).2)
    (hS : ∀ st a p d, I st → findProduction (p.lhs.name) g.productions 0 = some (a, p) →
      S'.choose (π st) a p d = ((S.choose st a p d).1, π (S.choose st a p d).2))
    (hf : ∀ st n t, I st → f' (π st) n t = ((f st n t).1, π (f st n t).2)) :
    ∀ (N : Nat) (id : Str) (d : Nat) (st : σ), I st →
      (traverse g S f N id d st).map π = traverse g S' f' N id d (π st) ∧ ∀ r st', traverse g S f N id d st = .done r st' → I st'
  | 0, _, _, _, _ => ⟨rfl, fun _ _ h => by cases h⟩
  | N + 1, id, d, st, hst => by
    have ih := traverse_map I hI hIf hS hf N
    have hev : ∀ (ts : List Term) (r : Str) (st : σ), I st →
        (evalTerms (fun nt st => traverse g S f N nt (d + 1) st) ts r st).map π =
          evalTerms (fun nt st => traverse g S' f' N nt (d + 1) st) ts r (π st) ∧
        ∀ r' st', evalTerms (fun nt st => traverse g S f N nt (d + 1) st) ts r st = .done r' st' → I st' := by
      intro ts
      induction ts with
      | nil => intro r st hst; exact ⟨rfl, fun r' st' h => by simp [evalTerms] at h; exact h.2 ▸ hst⟩
      | cons t ts iht =>
        intro r st hst
        cases t with
        | terminal t => simp only [evalTerms]; exact iht _ _ hst
        | nonterminal nt =>
          simp only [evalTerms]
          have hnt := ih nt (d + 1) st hst
          rw [← hnt.1]
          cases h : traverse g S f N nt (d + 1) st with
          | fuel => exact ⟨rfl, fun _ _ h => by cases h⟩
          | panic => exact ⟨rfl, fun _ _ h => by cases h⟩
          | done x st' =>
            have hst' := hnt.2 _ _ h
            cases x with
            | error e => exact ⟨rfl, fun _ _ h => by simp at h; exact h.2 ▸ hst'⟩
            | ok s => simp only [GenRes.map]; exact iht _ _ hst'
    cases hfp : findProduction id g.productions 0 with
    | none => rw [traverse_undeclared hfp, traverse_undeclared hfp]; exact ⟨rfl, fun _ _ h => by simp at h; exact h.2 ▸ hst⟩
    | some x =>
      obtain ⟨a, p⟩ := x
      have hname : findProduction p.lhs.name g.productions 0 = some (a, p) := by
        obtain ⟨_, _, _, hl, _⟩ := isFirst_of_find hfp
        rw [hl]; exact hfp
      by_cases hn : productionHasNoChoice p = true
      · rw [traverse_noChoice hfp hn, traverse_noChoice hfp hn]; exact ⟨rfl, fun _ _ h => by simp at h; exact h.2 ▸ hst⟩
      · rw [traverse_choose hfp hn, traverse_choose hfp hn, hS st a p d hst hname]
        have hI1 := hI st a p d hst
        rcases hc : S.choose st a p d with ⟨c, st1⟩
        rw [hc] at hI1
        cases c with
        | panic => exact ⟨rfl, fun _ _ h => by cases h⟩
        | none => exact ⟨rfl, fun _ _ h => by simp at h; exact h.2 ▸ hI1⟩
        | expr e =>
          simp only
          have := hev e.terms [] st1 hI1
          rw [← this.1]
          cases hv : evalTerms (fun nt st => traverse g S f N nt (d + 1) st) e.terms [] st1 with
          | fuel => exact ⟨rfl, fun _ _ h => by cases h⟩
          | panic => exact ⟨rfl, fun _ _ h => by cases h⟩
          | done r st2 =>
            have hst2 := this.2 _ _ hv
            cases r with
            | error e => exact ⟨rfl, fun _ _ h => by simp at h; exact h.2 ▸ hst2⟩
            | ok v =>
              have hI2 := hIf st2 id v hst2
              simp only [GenRes.map, hf st2 id v hst2]
              by_cases hac : (f st2 id v).1 = true
              · simp only [hac, if_true]
                exact ⟨trivial, fun _ _ h => by simp at h; exact h.2 ▸ hI2⟩
              · simp only [hac, Bool.false_eq_true, if_false]
                exact ih id d _ hI2

theorem generateWith_map {S : Strategy σ} {S' : Strategy τ} {f : Callback σ} {f' : Callback τ} (I : σ → Prop)
    (hI : ∀ st a p d, I st → I (S.choose st a p d).2) (hIf : ∀ st n t, I st → I (f st n t).2)
    (hS : ∀ st a p d, I st → findProduction (p.lhs.name) g.productions 0 = some (a, p) →
      S'.choose (π st) a p d = ((S.choose st a p d).1, π (S.choose st a p d).2))
    (hf : ∀ st n t, I st → f' (π st) n t = ((f st n t).1, π (f st n t).2)) (N : Nat) {st : σ} (hst : I st) :
    (g.generateWith S f N st).map π = g.generateWith S' f' N (π st) := by
  unfold Grammar.generateWith
  split
  · rfl
  · rfl
  · split
    · split
      · exact (traverse_map I hI hIf hS hf N _ _ _ hst).1
      · rfl
    · rfl

end

/-! ## Calls -/

theorem generateWith_cases {σ : Type} (g : Grammar) (S : Strategy σ) (f : Callback σ) :
    (∃ start w, g.startingTerm = some (.nonterminal start) ∧ Derives g (.nonterminal start) w ∧
      ∀ fuel st, g.generateWith S f fuel st = traverse g S f fuel start 0 st) ∨
    ((¬ ∃ start w, g.startingTerm = some (.nonterminal start) ∧ Derives g (.nonterminal start) w) ∧
      ∀ fuel st, ∃ e, g.generateWith S f fuel st = .done (.error e) st) := by
  obtain ⟨b, h1, h2⟩ := terminates_spec g
  cases b with
  | false =>
    refine .inr ⟨?_, fun fuel st => ⟨.generateError msgNonterminating, ?_⟩⟩
    · rintro ⟨start, w, h3, h4⟩
      have := h2.2 (.inr ⟨_, h3, w, h4⟩)
      cases this
    · unfold Grammar.generateWith; rw [h1]
  | true =>
    cases hp : g.productions with
    | nil =>
      refine .inr ⟨?_, fun fuel st => ⟨.generateError msgNoProduction, ?_⟩⟩
      · rintro ⟨start, w, h3, h4⟩; simp [Grammar.startingTerm, hp] at h3
      · unfold Grammar.generateWith; rw [h1, hp]
    | cons p ps =>
      cases hl : p.lhs with
      | terminal s =>
        refine .inr ⟨?_, fun fuel st => ⟨.generateError (msgTerminalLhs p), ?_⟩⟩
        · rintro ⟨start, w, h3, h4⟩; simp [Grammar.startingTerm, hp, hl] at h3
        · unfold Grammar.generateWith; rw [h1, hp]; simp only [hl]
      | nonterminal n =>
        rcases h2.1 rfl with h3 | ⟨S', h3, w, h4⟩
        · simp [hp] at h3
        · simp [Grammar.startingTerm, hp, hl] at h3
          subst h3
          refine .inl ⟨n, w, by simp [Grammar.startingTerm, hp, hl], h4, fun fuel st => ?_⟩
          unfold Grammar.generateWith; rw [h1, hp]; simp only [hl]

section
variable {σ : Type} {g : Grammar} {S : Strategy σ} {A : Allowance} {acc : Str → Str → Bool}

theorem generateWith_yields (hS : Obeys g S A) {fuel : Nat} {st st' : σ} {s : Str}
    (h : g.generateWith S (pureCallback acc) fuel st = .done (.ok s) st') :
    ∃ start w, g.startingTerm = some (.nonterminal start) ∧ Derives g (.nonterminal start) w ∧
      Yields g A acc 0 [.nonterminal start] s := by
  rcases generateWith_cases g S (pureCallback acc) with ⟨start, w, h1, h2, h3⟩ | ⟨_, h3⟩
  · rw [h3] at h
    exact ⟨start, w, h1, h2, traverse_yields hS _ h⟩
  · obtain ⟨e, h4⟩ := h3 fuel st
    rw [h] at h4; simp at h4

theorem traverse_of_yields {push : Nat → σ → σ} (hS : Steerable g S A push) {d n v} (h : Yields g A acc d [.nonterminal n] v) :
    ∃ (script : List Nat) (N : Nat), ∀ st,
      traverse g S (pureCallback acc) N n d (script.foldr push st) = .done (.ok v) st := by
  obtain ⟨sc, N, h1⟩ := yields_steered hS h
  refine ⟨sc, N, fun st => ?_⟩
  have h2 := h1 [] st
  rw [evalTerms] at h2
  split at h2
  · rename_i s st1 h3
    simp [evalTerms] at h2
    rw [h3, h2.1, h2.2]
  · simp at h2
  · cases h2
  · cases h2

theorem generateWith_of_yields {push : Nat → σ → σ} (hS : Steerable g S A push) (st : σ) {start w s}
    (h1 : g.startingTerm = some (.nonterminal start)) (h2 : Derives g (.nonterminal start) w)
    (h3 : Yields g A acc 0 [.nonterminal start] s) :
    ∃ st0 fuel, g.generateWith S (pureCallback acc) fuel st0 = .done (.ok s) st := by
  rcases generateWith_cases g S (pureCallback acc) with ⟨start', w', h1', h2', h3'⟩ | ⟨h4, _⟩
  · rw [h1] at h1'; injection h1' with h1'; injection h1' with h1'; subst h1'
    obtain ⟨sc, N, h5⟩ := traverse_of_yields hS h3
    exact ⟨_, N, by rw [h3', h5 st]⟩
  · exact absurd ⟨start, w, h1, h2⟩ h4

theorem generateWith_diverges (hS : Obeys g S A) {st : σ}
    (h : ∀ fuel, g.generateWith S (pureCallback acc) fuel st = .fuel) : StartEndlessWith g A acc := by
  rcases generateWith_cases g S (pureCallback acc) with ⟨start, w, h1, h2, h3⟩ | ⟨_, h3⟩
  · exact ⟨start, w, h1, h2, endlessWith_of_diverges hS fun N => by rw [← h3, h N]⟩
  · obtain ⟨r, h4⟩ := h3 0 st
    rw [h 0] at h4; cases h4

theorem diverging_generateWith {S : Strategy (Nat → Nat)} (hS : Steerable g S A consSeq)
    (h : StartEndlessWith g A acc) : ∃ st, ∀ fuel, g.generateWith S (pureCallback acc) fuel st = .fuel := by
  obtain ⟨start, w, h1, h2, h3⟩ := h
  rcases generateWith_cases g S (pureCallback acc) with ⟨start', w', h1', h2', h3'⟩ | ⟨h4, _⟩
  · rw [h1] at h1'; injection h1' with h1'; injection h1' with h1'; subst h1'
    obtain ⟨st, hst⟩ := diverges_of_endlessWith hS consSeq_limit h3
    exact ⟨st, fun fuel => by rw [h3', hst]⟩
  · exact absurd ⟨start, w, h1, h2⟩ h4

theorem obeys_neverPanics (hS : Obeys g S A) (f : Callback σ) : ∀ (N : Nat) (n : Str) (d : Nat) (st : σ),
    traverse g S f N n d st ≠ .panic
  | 0, _, _, _ => by simp [traverse]
  | N + 1, n, d, st => by
    cases hf : findProduction n g.productions 0 with
    | none => rw [traverse_undeclared hf]; simp
    | some x =>
      obtain ⟨a, p⟩ := x
      by_cases hn : productionHasNoChoice p = true
      · rw [traverse_noChoice hf hn]; simp
      · have hn' : ¬ NoChoice p := by rwa [noChoice_iff] at hn
        obtain ⟨e, st1, hc, hA⟩ := hS st a p d (isFirst_mem (isFirst_of_find hf)) (rhs_ne_of_choice hn')
        rw [traverse_choose hf hn, hc]
        simp only
        have := evalTerms_panic (trav := fun nt st => traverse g S f N nt (d + 1) st)
          (fun nt st => obeys_neverPanics hS f N nt _ st) e.terms [] st1
        split
        · split
          · simp
          · exact obeys_neverPanics hS f N _ _ _
        · exact this

theorem generateWith_bounded {g : Grammar} {A : Allowance} {acc : Str → Str → Bool} (hmem : ∀ {d p e}, A d p e → e ∈ p.rhs)
    (h : ¬ StartEndlessWith g A acc) :
    ∃ fuel, ∀ (σ : Type) (S : Strategy σ), Obeys g S A → ∀ st, ∃ r st', g.generateWith S (pureCallback acc) fuel st = .done r st' := by
  rcases Classical.em (∃ start w, g.startingTerm = some (.nonterminal start) ∧ Derives g (.nonterminal start) w) with
    ⟨start, w, h1, h2⟩ | hno
  · obtain ⟨N, hN⟩ := boundedWith_of_not_endless hmem (d := 0) (n := start) fun he => h ⟨start, w, h1, h2, he⟩
    refine ⟨N, fun σ S hS st => ?_⟩
    rcases generateWith_cases g S (pureCallback acc) with ⟨start', w', h1', h2', h3'⟩ | ⟨h4, _⟩
    · rw [h1] at h1'; injection h1' with h1'; injection h1' with h1'; subst h1'
      rw [h3']
      cases hr : traverse g S (pureCallback acc) N start 0 st with
      | fuel => exact absurd hr (hN σ S hS st)
      | panic => exact absurd hr (obeys_neverPanics hS _ _ _ _ _)
      | done r st' => exact ⟨r, st', rfl⟩
    · exact absurd ⟨start, w, h1, h2⟩ h4
  · refine ⟨0, fun σ S hS st => ?_⟩
    rcases generateWith_cases g S (pureCallback acc) with ⟨start', w', h1', h2', h3'⟩ | ⟨_, h4⟩
    · exact absurd ⟨_, _, h1', h2'⟩ hno
    · obtain ⟨r, hr⟩ := h4 0 st
      exact ⟨_, st, hr⟩

end

/-! ## Accepting everything -/

section
variable {g : Grammar} {A : Allowance} {acc : Str → Str → Bool}

theorem finishable_of_yields {d ts w} (h : Yields g A acc d ts w) : ∀ k, .nonterminal k ∈ ts → Finishable g A d k := by
  induction h with
  | nil => simp
  | terminal _ ih => intro k hk; exact ih k (by simpa using hk)
  | undeclared hd _ ih =>
    intro k hk
    rcases List.mem_cons.1 hk with hk | hk
    · injection hk with hk; subst hk; exact .undeclared hd
    · exact ih k hk
  | expand h1 h2 h3 _ _ _ ih1 ih2 =>
    intro k hk
    rcases List.mem_cons.1 hk with hk | hk
    · injection hk with hk; subst hk; exact .expand h1 h2 h3 ih1
    · exact ih2 k hk

theorem yields_of_finishable {d n} (h : Finishable g A d n) : ∃ v, Yields g A (fun _ _ => true) d [.nonterminal n] v := by
  induction h with
  | undeclared hd => exact ⟨_, .undeclared hd .nil⟩
  | expand h1 h2 h3 _ ih =>
    obtain ⟨u, hu⟩ := yields_of_each _ ih
    exact ⟨_, .expand h1 h2 h3 hu rfl .nil⟩

theorem leadsTo_iff {d n m} : LeadsTo g A (fun _ _ => true) d n m ↔ Leads g A d n m := by
  constructor
  · rintro ⟨p, e, b, af, u, h1, h2, h3, h4, h5⟩
    exact ⟨p, e, b, af, h1, h2, h3, h4, finishable_of_yields h5⟩
  · rintro ⟨p, e, b, af, h1, h2, h3, h4, h5⟩
    obtain ⟨u, hu⟩ := yields_of_each b fun k hk => yields_of_finishable (h5 k hk)
    exact ⟨p, e, b, af, u, h1, h2, h3, h4, hu⟩

theorem endlessWith_true {d n} : EndlessWith g A (fun _ _ => true) d n ↔ Endless g A d n := by
  have hno : ∀ d n, ¬ ReachesReject g A (fun _ _ => true) d n := by
    intro d n h
    induction h with
    | here h => obtain ⟨_, _, _, _, _, _, _, h⟩ := h; cases h
    | step _ _ ih => exact ih
  constructor
  · rintro (h | ⟨ns, h1, h2⟩)
    · exact absurd h (hno _ _)
    · exact ⟨ns, h1, fun i => leadsTo_iff.1 (h2 i)⟩
  · rintro ⟨ns, h1, h2⟩
    exact .inr ⟨ns, h1, fun i => leadsTo_iff.2 (h2 i)⟩

end

/-! ## CoverageGuided with everything covered -/

/-- Every alternative of every production has been chosen. -/
def AllCovered (g : Grammar) (seen : List (Nat × Nat)) : Prop :=
  ∀ a p, g.productions[a]? = some p → ∀ i < p.rhs.length, (a, i) ∈ seen

section
variable {ρ Seed : Type} {R : Rng ρ Seed} {g : Grammar}

theorem coverage_obeys : Obeys g (CoverageGuided R) anyAlternative := by
  rintro ⟨seen, rng⟩ a p d _ hne
  obtain ⟨i, rng', hi, h, _⟩ := coverage_spec (R := R) seen rng a p d hne
  exact ⟨_, _, h, List.getElem_mem _⟩

theorem coverage_all {a : Nat} {p : Production} {seen : List (Nat × Nat)} {rng : ρ} {d : Nat} (hs : ∀ i < p.rhs.length, (a, i) ∈ seen) :
    (RandomWalk R).choose rng a p d =
      (((CoverageGuided R).choose (seen, rng) a p d).1, ((CoverageGuided R).choose (seen, rng) a p d).2.2) := by
  have hu : ((List.range p.rhs.length).filter fun i => !seen.contains (a, i)) = [] := by
    rw [List.filter_eq_nil_iff]
    intro i hi
    have := hs i (List.mem_range.1 hi)
    simp [this]
  simp only [CoverageGuided, hu, pickFrom, List.isEmpty_nil, if_true, RandomWalk]
  rcases randomIndex R rng p.rhs.length with ⟨i, rng'⟩
  cases i <;> rfl

theorem coverage_generate {f : Callback ρ} {seen : List (Nat × Nat)} (hs : AllCovered g seen) (fuel : Nat) (rng : ρ) :
    (g.generateWith (CoverageGuided R) (fun st n t => ((f st.2 n t).1, (st.1, (f st.2 n t).2))) fuel (seen, rng)).map Prod.snd =
      g.generateWith (RandomWalk R) f fuel rng := by
  refine generateWith_map (π := Prod.snd) (fun st => AllCovered g st.1) ?_ ?_ ?_ ?_ fuel (st := (seen, rng)) hs
  · rintro ⟨seen, rng⟩ a p d h b q hq i hi
    have h1 := h b q hq i hi
    simp only [CoverageGuided]
    split
    · exact h1
    · exact List.mem_cons_of_mem _ h1
  · intro st n t h; exact h
  · rintro ⟨seen, rng⟩ a p d h hf
    obtain ⟨b, af, h1, _, _, h4⟩ := findProduction_some hf
    exact coverage_all (h a p (by rw [h1, h4]; simp))
  · intro st n t _; rfl

end

/-! ## A strategy whose state is paired with something -/

theorem callback_pair {ρ Seed τ : Type} (R : Rng ρ Seed) (g : Grammar) (acc : Str → Str → Bool) (fuel : Nat) (rng : ρ) (cb : τ) :
    (g.generateSeededCallback R (fun cb n t => (acc n t, cb)) fuel rng cb).1.map Prod.fst =
      g.generateWith (RandomWalk R) (pureCallback acc) fuel (R.fromSeed (R.fill rng).1) := by
  refine generateWith_map (π := Prod.fst) (fun _ => True) (fun _ _ _ _ _ => trivial) (fun _ _ _ _ => trivial) ?_ ?_ fuel
    (st := (R.fromSeed (R.fill rng).1, cb)) trivial
  · intro st a p d _ _; rfl
  · intro st n t _; rfl

end Bnf
