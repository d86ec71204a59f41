import Verif.Proofs.Trap
import Verif.Spec.Work
import Mathlib.Algebra.BigOperators.Intervals
import Mathlib.Data.Set.Card

/-! Rounds of the Earley loop and entries of its tree, counted. -/

set_option autoImplicit false

namespace Bnf
open Spec

/-- Rounds taken by a call. -/
theorem earley_rounds {pg input S} (hpg : PGOk pg) {n : Nat} :
    ∀ {st : PState} {r st'}, Inv pg input S st → earley pg n st = .returned (r, st') →
    (∀ m, m < n → earley pg m st = .outOfFuel) →
    st'.tree.arena.length + st.queue.queue.length + (if r = none then 1 else 0) =
      st.tree.arena.length + st'.queue.queue.length + n := by
  induction n with
  | zero => intro st r st' _ h; simp [earley] at h
  | succ n ih =>
    intro st r st' hinv h hm
    unfold earley at h
    split at h
    · rename_i hq
      simp at h
      obtain ⟨rfl, rfl⟩ := h
      have : n = 0 := by
        by_contra hn
        have := hm n (by omega)
        obtain ⟨k, rfl⟩ : ∃ k, n = k + 1 := ⟨n - 1, by omega⟩
        simp [earley, hq] at this
      subst this
      simp
    · rename_i id rest hq
      have hstep : ∀ m, earley pg (m + 1) st = match earleyRound pg (st.pop rest) id with
          | none => .panic
          | some (st', true) => .returned (some id, st')
          | some (st', false) => earley pg m st' := by
        intro m
        rw [earley]
        simp only [hq, PState.pop]
        rfl
      split at h
      · cases h
      · rename_i st1 hr
        simp at h
        obtain ⟨rfl, rfl⟩ := h
        obtain ⟨hi, _, _, _, he⟩ := Later.of_round hpg hinv hq hr
        have hme := round_measure hi hq he
        have : n = 0 := by
          by_contra hn
          have := hm n (by omega)
          obtain ⟨k, rfl⟩ : ∃ k, n = k + 1 := ⟨n - 1, by omega⟩
          rw [hstep, PState.pop, hr] at this
          simp at this
        subst this
        simp
        omega
      · rename_i st1 hr
        obtain ⟨hi, _, _, _, he⟩ := Later.of_round hpg hinv hq hr
        have hme := round_measure hi hq he
        have := ih hi h (fun m hmn => by
          have := hm (m + 1) (by omega)
          rw [hstep, PState.pop, hr] at this
          exact this)
        omega

theorem nextIn_rounds {g S input it n r it'} (hi : ItInv g S input it) (h : NextIn it n r it') :
    ItInv g S input it' ∧ it'.st.tree.arena.length + it.st.queue.queue.length + (if r = none then 1 else 0) =
      it.st.tree.arena.length + it'.st.queue.queue.length + n := by
  have hn : Next it r it' := ⟨n, h.1⟩
  have hi' : ItInv g S input it' := Reach.inv (.step hn .refl) hi
  refine ⟨hi', ?_⟩
  have hlow : ∀ m, m < n → earley (ParseGrammar.newUnchecked g) m it.st = .outOfFuel := by
    intro m hm
    have := h.2 m hm
    unfold ParseTreeIter.next at this
    rw [hi.pg] at this
    split at this
    · assumption
    · cases this
    · cases this
    · rename_i id st he
      split at this <;> cases this
  have h1 := h.1
  unfold ParseTreeIter.next at h1
  rw [hi.pg] at h1
  split at h1
  · cases h1
  · cases h1
  · rename_i st he
    simp at h1
    obtain ⟨rfl, rfl⟩ := h1
    exact earley_rounds (PGOk.newUnchecked g) hi.inv he hlow
  · rename_i id st he
    split at h1
    · cases h1
    · simp at h1
      obtain ⟨rfl, rfl⟩ := h1
      have := earley_rounds (PGOk.newUnchecked g) hi.inv he hlow
      simpa using this

theorem nextIn_of_next {g S input it r it'} (hi : ItInv g S input it) (h : Next it r it') : ∃ n, NextIn it n r it' := by
  classical
  have hex : ∃ f, it.next f = .returned (r, it') := h
  refine ⟨Nat.find hex, Nat.find_spec hex, ?_⟩
  intro m hm
  have hmin := Nat.find_min hex hm
  cases hx : it.next m with
  | outOfFuel => rfl
  | panic => exact absurd hx (next_no_panic hi m)
  | returned x =>
    exfalso
    have h1 := next_mono hx (max m (Nat.find hex)) (by omega)
    have h2 := next_mono (Nat.find_spec hex) (max m (Nat.find hex)) (by omega)
    rw [h1] at h2
    injection h2 with h2
    rw [h2] at hx
    exact hmin hx

theorem drainsIn_draws {it ts n it'} (h : DrainsIn it ts n it') : ∃ it1, Draws it ts it1 ∧ Next it1 none it' := by
  induction h with
  | done h => exact ⟨_, .nil, _, h.1⟩
  | step h _ ih =>
    obtain ⟨it1, h1, h2⟩ := ih
    exact ⟨it1, .cons ⟨_, h.1⟩ h1, h2⟩

theorem drainsIn_of_draws {g S input it ts it1 it2} (hi : ItInv g S input it) (hd : Draws it ts it1)
    (hn : Next it1 none it2) : ∃ n, DrainsIn it ts n it2 := by
  induction hd with
  | nil =>
    obtain ⟨n, h⟩ := nextIn_of_next hi hn
    exact ⟨n, .done h⟩
  | cons h _ ih =>
    obtain ⟨n, h⟩ := nextIn_of_next hi h
    obtain ⟨m, h'⟩ := ih (nextIn_rounds hi h).1 hn
    exact ⟨_, .step h h'⟩

theorem drainsIn_rounds {g S input it ts n it'} (hi : ItInv g S input it) (h : DrainsIn it ts n it') :
    it'.st.tree.arena.length + it.st.queue.queue.length + 1 = it.st.tree.arena.length + n := by
  induction h with
  | done h =>
    have hq := (Next.none_rounds hi ⟨_, h.1⟩).2.2.1
    have := (nextIn_rounds hi h).2
    simp [hq] at this
    omega
  | step h _ ih =>
    obtain ⟨h1, h2⟩ := nextIn_rounds hi h
    have := ih h1
    simp at h2
    omega

/-- In a fresh iterator everything is still queued. -/
theorem fresh_queue {g S input it} (hi : ItInv g S input it) (h0 : ∀ k, ¬ Popped it.st k) :
    it.st.queue.queue.length = it.st.tree.arena.length := by
  have hle := queue_le hi.inv
  have : (List.range it.st.tree.arena.length).Subperm it.st.queue.queue := by
    refine List.nodup_range.subperm ?_
    intro k hk
    by_contra hnot
    exact h0 k ⟨by simpa using hk, hnot⟩
  have := this.length_le
  simp at this
  omega

/-- The partial derivation of an entry. -/
def ItemOf (g : Grammar) (input : Str) (st : PState) (k : Nat) (x : Begun) : Prop :=
  ∃ tr ks r p, st.tree.arena[k]? = some tr ∧ Den st.tree.arena k ks ∧
    (ParseGrammar.newUnchecked g).productions[tr.prodId]? = some p ∧ (∃ done, VF (ParseGrammar.newUnchecked g) done ks) ∧
    input = x.seen ++ r ∧ tr.range.start = byteLen x.seen ∧
    x.lhs = p.lhs ∧ x.alt = p.rhs ∧ x.forest = erase (ParseGrammar.newUnchecked g) ks

theorem itemOf_exists {g S input st} (h : Inv (ParseGrammar.newUnchecked g) input S st) {k : Nat}
    (hk : k < st.tree.arena.length) : ∃ x, ItemOf g input st k x ∧ Viable g S input x := by
  have hk' : st.tree.arena[k]? = some st.tree.arena[k] := List.getElem?_eq_getElem hk
  obtain ⟨u, ks, done, r, p, hd, hp, hts, hv, hi, hst, _, he⟩ := entry_expected h.s k _ hk'
  refine ⟨⟨u, p.lhs, p.rhs, erase (ParseGrammar.newUnchecked g) ks⟩,
    ⟨_, ks, dyield ks ++ r, p, hk', hd, hp, ⟨done, hv⟩, by simp [hi], hst, rfl, rfl, rfl⟩, prod_hasAlt hp, he, done, _, r,
    hts, hv.forest, by simp only [yield_erase]; exact hi⟩

theorem itemOf_fun {g : Grammar} {input : Str} {st : PState} {k : Nat} {x y : Begun}
    (hx : ItemOf g input st k x) (hy : ItemOf g input st k y) : x = y := by
  obtain ⟨tr, ks, r, p, h1, h2, h3, _, h5, h6, h7, h8, h9⟩ := hx
  obtain ⟨tr', ks', r', p', h1', h2', h3', _, h5', h6', h7', h8', h9'⟩ := hy
  rw [h1] at h1'; injection h1' with h1'; subst h1'
  rw [h3] at h3'; injection h3' with h3'; subst h3'
  have := h2.fun h2'
  subst this
  have hs : x.seen = y.seen := prefix_unique (by rw [← h5, ← h5']) (by rw [← h6, ← h6'])
  cases x; cases y
  simp_all

theorem itemOf_inj {g S input st} (hn : g.flatProds.Nodup) (h : Inv (ParseGrammar.newUnchecked g) input S st) {k k' : Nat} {x}
    (hx : ItemOf g input st k x) (hy : ItemOf g input st k' x) : k = k' := by
  obtain ⟨tr, ks, r, p, h1, h2, h3, ⟨_, h4⟩, h5, h6, h7, h8, h9⟩ := hx
  obtain ⟨tr', ks', r', p', h1', h2', h3', ⟨_, h4'⟩, h5', h6', h7', h8', h9'⟩ := hy
  have hks := (erase_inj hn h4 h4' (by rw [← h9, ← h9'])).2
  subst hks
  refine h.s.den_inj h2 h2' h1 h1' ?_ (by rw [h6, h6'])
  have g1 : g.flatProds[tr.prodId]? = some (p.lhs, p.rhs) := by
    rw [← newUnchecked_productions, List.getElem?_map, h3]; rfl
  have g2 : g.flatProds[tr'.prodId]? = some (p'.lhs, p'.rhs) := by
    rw [← newUnchecked_productions, List.getElem?_map, h3']; rfl
  rw [← h7, ← h8] at g1
  rw [← h7', ← h8'] at g2
  obtain ⟨l1, g1⟩ := List.getElem?_eq_some_iff.mp g1
  obtain ⟨l2, g2⟩ := List.getElem?_eq_some_iff.mp g2
  exact (List.Nodup.getElem_inj_iff hn).mp (by rw [g1, g2])

theorem itemOf_complete {g S input st} (h : Inv (ParseGrammar.newUnchecked g) input S st) (hq : st.queue.queue = []) {x}
    (hx : Viable g S input x) : ∃ k, k < st.tree.arena.length ∧ ItemOf g input st k x := by
  obtain ⟨ha, hex, pre, post, r, hts, hf, hr⟩ := hx
  obtain ⟨i, p, hp, hl, hrhs⟩ := hasAlt_prod ha
  obtain ⟨k0, hk0⟩ := expected_root h hq hex i p hp hl
  obtain ⟨tr0, htr0, hs0, hpr0, hst0⟩ := (h.s.roots _ _ _).mp hk0
  obtain ⟨hlen0, _, hun0⟩ := (h.s.entries k0 tr0 htr0).root hs0
  have ht0 : tr0.total = byteLen x.seen := by simp only [Traversal.total, InputRange.totalLen]; omega
  obtain ⟨ks, hv, he⟩ := forest_VF hf
  obtain ⟨e1, st1, id, tr, hr1, hid, _, hpid, hst, _, hden⟩ := eventually_extended (PGOk.newUnchecked g) hv (us := post)
    (r := r) h htr0 (by rw [← hts, ← hrhs]; exact hun0 p (by rw [hpr0]; exact hp))
    (by rw [ht0, ← yield_erase (ParseGrammar.newUnchecked g), he, hr, List.append_assoc, getFrom_append_left])
    (.root htr0 hs0)
  obtain ⟨_, rfl⟩ := rounds_empty hr1 hq
  exact ⟨id, (List.getElem?_eq_some_iff.mp hid).1, tr, ks, Spec.yield x.forest ++ r, p, hid, by simpa using hden,
    by rw [hpid, hpr0]; exact hp, ⟨pre, hv⟩, by rw [hr]; simp, by rw [hst, hst0], hl.symm, hrhs.symm, he.symm⟩

/-- Entries are at most as many as viable partial derivations, in every state. -/
theorem arena_le {g S input st} (hn : g.flatProds.Nodup) (h : Inv (ParseGrammar.newUnchecked g) input S st)
    (hfin : {x | Viable g S input x}.Finite) : st.tree.arena.length ≤ {x | Viable g S input x}.ncard := by
  choose f hf1 hf2 using fun k : Fin st.tree.arena.length => itemOf_exists h k.2
  have hinj : Function.Injective f := fun a b hab => by
    have h1 := hf1 a
    rw [hab] at h1
    exact Fin.ext (itemOf_inj hn h h1 (hf1 b))
  have := Set.ncard_le_ncard (s := Set.range f) (by rintro _ ⟨k, rfl⟩; exact hf2 k) hfin
  rw [← Set.image_univ, Set.ncard_image_of_injective _ hinj] at this
  simpa using this

/-- In a state with nothing left to do there is an entry for every viable partial derivation. -/
theorem arena_ge {g S input st} (h : Inv (ParseGrammar.newUnchecked g) input S st) (hq : st.queue.queue = []) :
    {x | Viable g S input x}.Finite ∧ {x | Viable g S input x}.ncard ≤ st.tree.arena.length := by
  choose f hf1 hf2 using fun k : Fin st.tree.arena.length => itemOf_exists h k.2
  have hsub : {x | Viable g S input x} ⊆ Set.range f := by
    intro x hx
    obtain ⟨k, hk, hik⟩ := itemOf_complete h hq hx
    exact ⟨⟨k, hk⟩, itemOf_fun (hf1 ⟨k, hk⟩) hik⟩
  have hr : (Set.range f).Finite := Set.finite_range f
  refine ⟨hr.subset hsub, (Set.ncard_le_ncard hsub hr).trans ?_⟩
  rw [← Set.image_univ]
  refine (Set.ncard_image_le Set.finite_univ).trans ?_
  simp

theorem _root_.Bnf.Spec.IsForest.append {g : Grammar} {ts ts' ns ns'} (h : IsForest g ts ns) (h' : IsForest g ts' ns') :
    IsForest g (ts ++ ts') (ns ++ ns') := by
  induction h with
  | nil => exact h'
  | terminal _ ih => exact .terminal ih
  | nonterminal ha hk _ _ ih => exact .nonterminal ha hk ih

theorem spec_yield_append (a b : List ParseTreeNode) : Spec.yield (a ++ b) = Spec.yield a ++ Spec.yield b := by
  induction a with
  | nil => simp [Spec.yield]
  | cons x xs ih => simp [Spec.yield, ih]

theorem forest_of_derivable {g : Grammar} (ts : List Term)
    (h : ∀ n, Term.nonterminal n ∈ ts → ∃ w, Derives g (.nonterminal n) w) : ∃ ns, IsForest g ts ns := by
  induction ts with
  | nil => exact ⟨[], .nil⟩
  | cons T ts ih =>
    obtain ⟨ns, hns⟩ := ih fun n hn => h n (List.mem_cons_of_mem _ hn)
    cases T with
    | terminal s => exact ⟨_, .terminal hns⟩
    | nonterminal n =>
      obtain ⟨w, ⟨l, kids⟩, hl, ⟨e, ha, hf⟩, _⟩ := h n List.mem_cons_self
      simp only at hl ha hf
      subst hl
      exact ⟨_, .nonterminal ha hf hns⟩

/-- In an unambiguous grammar without useless parts the beginning of an alternative spells a text in one way. -/
theorem prefix_forest_unique {g : Grammar} (hu : Unambiguous g) (hp : Productive g) {l e pre post ns ns'}
    (ha : HasAlt g l e) (hts : e.terms = pre ++ post) (h : IsForest g pre ns) (h' : IsForest g pre ns')
    (hy : Spec.yield ns = Spec.yield ns') : ns = ns' := by
  obtain ⟨ps, hps⟩ := forest_of_derivable (g := g) post fun n hn => hp l e n ha (by rw [hts]; simp [hn])
  have h1 : IsParse g l (Spec.yield ns ++ Spec.yield ps) ⟨l, ns ++ ps⟩ :=
    ⟨rfl, ⟨e, ha, by rw [hts]; exact h.append hps⟩, spec_yield_append _ _⟩
  have h2 : IsParse g l (Spec.yield ns ++ Spec.yield ps) ⟨l, ns' ++ ps⟩ :=
    ⟨rfl, ⟨e, ha, by rw [hts]; exact h'.append hps⟩, by rw [hy]; exact spec_yield_append _ _⟩
  have := hu _ _ _ _ h1 h2
  injection this with _ this
  exact List.append_cancel_right this

theorem forest_length {g : Grammar} {ts ns} (h : IsForest g ts ns) : ts.length = ns.length := by
  induction h with
  | nil => rfl
  | terminal _ ih => simp [ih]
  | nonterminal _ _ _ _ ih => simp [ih]

theorem sum_triangle (L : Nat) : (∑ j ∈ Finset.range (L + 1), (j + 1)) = (L + 1) * (L + 2) / 2 := by
  have h := Finset.sum_range_id_mul_two (L + 2)
  rw [Finset.sum_range_succ'] at h
  simp only [Nat.add_zero] at h
  have : (L + 2 - 1) = L + 1 := by omega
  rw [this] at h
  rw [Nat.mul_comm (L + 1), ← h]
  omega

/-- Viable partial derivations of an unambiguous grammar without useless parts are determined by place and range. -/
theorem viable_injOn {g : Grammar} {S : Term} {input : Str} (hu : Unambiguous g) (hp : Productive g) :
    Set.InjOn (fun x : Begun => (((x.lhs, x.alt), x.forest.length), (x.seen.length + (Spec.yield x.forest).length, x.seen.length)))
      {x | Viable g S input x} := by
  rintro ⟨u, l, e, ns⟩ ⟨ha, _, pre, post, r, hts, hf, hr⟩ ⟨u', l', e', ns'⟩ ⟨_, _, pre', post', r', hts', hf', hr'⟩ heq
  simp only [Prod.mk.injEq] at heq hts hts' hf hf' hr hr' ha
  obtain ⟨⟨⟨rfl, rfl⟩, h1⟩, h2, h3⟩ := heq
  have hpre : pre = pre' := by
    rw [hts] at hts'
    exact (List.append_inj hts' (by rw [forest_length hf, forest_length hf', h1])).1
  subst hpre
  have hseen : u = u' := (List.append_inj (s₁ := u) (s₂ := u') (t₁ := Spec.yield ns ++ r) (t₂ := Spec.yield ns' ++ r')
    (by rw [← List.append_assoc, ← hr, hr', List.append_assoc]) h3).1
  subst hseen
  have hy : Spec.yield ns = Spec.yield ns' := by
    rw [hr', List.append_assoc, List.append_assoc] at hr
    exact (List.append_inj (List.append_cancel_left hr) (by omega)).1.symm
  rw [prefix_forest_unique hu hp ha hts hf hf' hy]

/-- Viable partial derivations, counted by a set of ranges containing theirs. -/
theorem viable_count {g : Grammar} {S : Term} {input : Str} (hn : (alternatives g).Nodup) (hu : Unambiguous g)
    (hp : Productive g) (B : Finset (Nat × Nat)) (hB : ∀ x, Viable g S input x →
      (x.seen.length + (Spec.yield x.forest).length, x.seen.length) ∈ B) : {x | Viable g S input x}.Finite ∧
      {x | Viable g S input x}.ncard ≤ places g * B.card := by
  classical
  let A : Finset ((_ : Term × Expression) × Nat) := (alternatives g).toFinset.sigma fun a => Finset.range (a.2.terms.length + 1)
  have hA : A.card = places g := by
    rw [Finset.card_sigma]
    simp only [Finset.card_range]
    rw [List.sum_toFinset _ hn]
    rfl
  let f : Begun → ((_ : Term × Expression) × Nat) × (Nat × Nat) := fun x =>
    (⟨(x.lhs, x.alt), x.forest.length⟩, (x.seen.length + (Spec.yield x.forest).length, x.seen.length))
  have hmaps : ∀ x ∈ {x | Viable g S input x}, f x ∈ ((A ×ˢ B : Finset _) : Set _) := by
    intro x hx
    have hb := hB x hx
    obtain ⟨ha, _, pre, post, r, hts, hf, hr⟩ := hx
    simp only [Finset.coe_product, Set.mem_prod, Finset.mem_coe, A, Finset.mem_sigma, List.mem_toFinset, Finset.mem_range, f]
    refine ⟨⟨?_, ?_⟩, hb⟩
    · obtain ⟨p, hp, hl, he⟩ := ha
      simp only [alternatives, List.mem_flatMap, List.mem_map]
      exact ⟨p, hp, x.alt, he, by rw [hl]⟩
    · rw [hts, ← forest_length hf]; simp
  have hinj : Set.InjOn f {x | Viable g S input x} := by
    intro x hx y hy h
    refine viable_injOn hu hp hx hy ?_
    simp only [f, Prod.mk.injEq, Sigma.mk.injEq, heq_eq_eq] at h
    simp only [Prod.mk.injEq]
    exact h
  have hfin : {x | Viable g S input x}.Finite := Set.Finite.of_finite_image ((Finset.finite_toSet (A ×ˢ B)).subset
    (by rintro _ ⟨x, hx, rfl⟩; exact hmaps x hx)) hinj
  refine ⟨hfin, ?_⟩
  rw [← hA, ← Finset.card_product, ← Set.ncard_coe_finset]
  exact Set.ncard_le_ncard_of_injOn f hmaps hinj (Finset.finite_toSet _)

theorem viable_range {g : Grammar} {S : Term} {input : Str} {x : Begun} (h : Viable g S input x) :
    x.seen.length + (Spec.yield x.forest).length ≤ input.length := by
  obtain ⟨_, _, pre, post, r, hts, hf, hr⟩ := h
  have := congrArg List.length hr
  simp at this
  omega

theorem viable_quadratic {g : Grammar} {S : Term} {input : Str} (hn : (alternatives g).Nodup) (hu : Unambiguous g)
    (hp : Productive g) : {x | Viable g S input x}.Finite ∧
      {x | Viable g S input x}.ncard ≤ places g * ((input.length + 1) * (input.length + 2) / 2) := by
  let B : Finset ((_ : Nat) × Nat) := (Finset.range (input.length + 1)).sigma fun j => Finset.range (j + 1)
  have hB : B.card = (input.length + 1) * (input.length + 2) / 2 := by
    rw [Finset.card_sigma]
    simp only [Finset.card_range]
    exact sum_triangle _
  have := viable_count hn hu hp (S := S) (input := input) (B.image fun p => (p.1, p.2)) (by
    intro x hx
    have := viable_range hx
    simp only [Finset.mem_image, B, Finset.mem_sigma, Finset.mem_range]
    exact ⟨⟨_, _⟩, ⟨by dsimp only; omega, by dsimp only; omega⟩, rfl⟩)
  refine ⟨this.1, this.2.trans (Nat.mul_le_mul_left _ ?_)⟩
  rw [← hB]
  exact Finset.card_image_le

theorem viable_positions {g : Grammar} {S : Term} {input : Str} (hn : (alternatives g).Nodup) (hu : Unambiguous g)
    (hp : Productive g) (E : Finset Nat) (hE : ∀ u T, Expected g S input u T → u.length ∈ E) :
    {x | Viable g S input x}.Finite ∧
      {x | Viable g S input x}.ncard ≤ places g * ((input.length + 1) * E.card) := by
  have := viable_count hn hu hp (S := S) (input := input) (Finset.range (input.length + 1) ×ˢ E) (by
    intro x hx
    have := viable_range hx
    simp only [Finset.mem_product, Finset.mem_range]
    exact ⟨by omega, hE _ _ hx.2.1⟩)
  rwa [Finset.card_product, Finset.card_range] at this

end Bnf
