import Verif.Proofs.Work
import Verif.Proofs.Multiplicity
import Mathlib.Algebra.BigOperators.Finprod

/-! # Entries of the arena when alternatives are repeated -/

set_option autoImplicit false

namespace Bnf
open Spec

/-- Number of ways to read a partial derivation. -/
def begunCopies (g : Grammar) (x : Begun) : Nat := timesListed g x.lhs x.alt * forestCopies g x.forest

/-- The partial derivations with the numbers of the alternatives used. -/
def begunLifts (g : Grammar) (x : Begun) : List (Nat × List DNode) :=
  (idsOf g.flatProds (x.lhs, x.alt)).flatMap fun i => (liftForest g x.forest).map fun ks => (i, ks)

theorem begunLifts_length (g : Grammar) (x : Begun) : (begunLifts g x).length = begunCopies g x := by
  rw [begunLifts, begunCopies, length_flatMap_const _ _ (forestCopies g x.forest), idsOf_length, timesListed_eq]
  intro i _
  rw [List.length_map, liftForest_length]

theorem begunLifts_nodup (g : Grammar) (x : Begun) : (begunLifts g x).Nodup :=
  nodup_flatMap_map (List.nodup_range.filter _) (liftForest_nodup g x.forest) fun _ _ _ _ e => by simpa using e

/-- The numbered partial derivation of an entry. -/
def NumberedOf (st : PState) (k : Nat) (y : Nat × List DNode) : Prop :=
  ∃ tr, st.tree.arena[k]? = some tr ∧ tr.prodId = y.1 ∧ Den st.tree.arena k y.2

theorem itemOf_numbered {g input st} {k : Nat} {x : Begun}
    (hx : ItemOf g input st k x) : ∃ y ∈ begunLifts g x, NumberedOf st k y := by
  obtain ⟨tr, ks, r, p, h1, h2, h3, ⟨done, h4⟩, h5, h6, h7, h8, h9⟩ := hx
  refine ⟨(tr.prodId, ks), ?_, tr, h1, rfl, h2⟩
  simp only [begunLifts, List.mem_flatMap, List.mem_map, Prod.mk.injEq]
  refine ⟨tr.prodId, ?_, ks, ?_, rfl, rfl⟩
  · rw [idsOf_mem, h7, h8]
    exact flatProds_getElem? h3
  · rw [h9]; exact h4.mem_lift.2

theorem numbered_fun {st : PState} {k : Nat} {y y'} (h : NumberedOf st k y) (h' : NumberedOf st k y') : y = y' := by
  obtain ⟨tr, h1, h2, h3⟩ := h
  obtain ⟨tr', h1', h2', h3'⟩ := h'
  rw [h1] at h1'; injection h1' with h1'; subst h1'
  exact Prod.ext (h2.symm.trans h2') (h3.fun h3')

theorem numbered_inj {g S input st} (h : Inv (ParseGrammar.newUnchecked g) input S st) {k k' : Nat} {x y}
    (hx : ItemOf g input st k x) (hx' : ItemOf g input st k' x) (hy : NumberedOf st k y) (hy' : NumberedOf st k' y) : k = k' := by
  obtain ⟨tr, _, r, p, h1, _, h3, _, h5, h6, _⟩ := hx
  obtain ⟨tr', _, r', p', h1', _, h3', _, h5', h6', _⟩ := hx'
  obtain ⟨tr1, g1, g2, g3⟩ := hy
  obtain ⟨tr1', g1', g2', g3'⟩ := hy'
  rw [h1] at g1; injection g1 with g1; subst g1
  rw [h1'] at g1'; injection g1' with g1'; subst g1'
  exact h.s.den_inj g3 g3' h1 h1' (g2.trans g2'.symm) (by rw [h6, h6'])

theorem numbered_complete {g S input st} (h : Inv (ParseGrammar.newUnchecked g) input S st) (hq : st.queue.queue = []) {x}
    (hx : Viable g S input x) {y} (hy : y ∈ begunLifts g x) :
    ∃ k, k < st.tree.arena.length ∧ ItemOf g input st k x ∧ NumberedOf st k y := by
  obtain ⟨ha, hex, pre, post, r, hts, hf, hr⟩ := hx
  simp only [begunLifts, List.mem_flatMap, List.mem_map] at hy
  obtain ⟨i, hi, ks, hks, rfl⟩ := hy
  rw [idsOf_mem] at hi
  obtain ⟨p, hp, hl, hrhs⟩ := flatProds_getElem?' hi
  obtain ⟨hv, he⟩ := lift_VF hf ks hks
  obtain ⟨k0, hk0⟩ := expected_root h hq hex i p hp hl
  obtain ⟨tr0, htr0, hs0, hpr0, hst0⟩ := (h.s.roots _ _ _).mp hk0
  obtain ⟨hlen0, _, hun0⟩ := (h.s.entries k0 tr0 htr0).root hs0
  have ht0 : tr0.total = byteLen x.seen := by simp only [Traversal.total, InputRange.totalLen]; omega
  obtain ⟨e1, st1, id, tr, hr1, hid, _, hpid, hst, _, hden⟩ := eventually_extended (PGOk.newUnchecked g) hv (us := post)
    (r := r) h htr0 (by rw [← hts, ← hrhs]; exact hun0 p (by rw [hpr0]; exact hp))
    (by rw [ht0, ← yield_erase (ParseGrammar.newUnchecked g), he, hr, List.append_assoc, getFrom_append_left])
    (.root htr0 hs0)
  obtain ⟨_, rfl⟩ := rounds_empty hr1 hq
  refine ⟨id, (List.getElem?_eq_some_iff.mp hid).1, ⟨tr, ks, Spec.yield x.forest ++ r, p, hid, by simpa using hden,
    by rw [hpid, hpr0]; exact hp, ⟨pre, hv⟩, by rw [hr]; simp, by rw [hst, hst0], hl.symm, hrhs.symm, he.symm⟩,
    tr, hid, by rw [hpid, hpr0], by simpa using hden⟩

open scoped Classical in
/-- The number of entries in a state with nothing left to do. -/
theorem arena_eq {g S input st} (h : Inv (ParseGrammar.newUnchecked g) input S st) (hq : st.queue.queue = []) :
    st.tree.arena.length = ∑ᶠ x ∈ {x | Viable g S input x}, begunCopies g x := by
  have hfin := (arena_ge h hq).1
  choose f hf1 hf2 using fun k : Fin st.tree.arena.length => itemOf_exists h k.2
  rw [finsum_mem_eq_finite_toFinset_sum _ hfin]
  have h1 : (Finset.univ : Finset (Fin st.tree.arena.length)).card = _ :=
    Finset.card_eq_sum_card_fiberwise (f := f) (s := Finset.univ) (t := hfin.toFinset) fun k _ => by simpa using hf2 k
  rw [Finset.card_univ, Fintype.card_fin] at h1
  rw [h1]
  refine Finset.sum_congr rfl fun x hx => ?_
  have hx : Viable g S input x := by simpa using hx
  rw [← begunLifts_length, ← List.toFinset_card_of_nodup (begunLifts_nodup g x)]
  choose y hy1 hy2 using fun k => itemOf_numbered (hf1 k)
  refine Finset.card_bij (fun k _ => y k) ?_ ?_ ?_
  · intro k hk
    have : f k = x := by simpa using hk
    rw [List.mem_toFinset, ← this]; exact hy1 k
  · intro a ha b hb hab
    have ea : f a = x := by simpa using ha
    have eb : f b = x := by simpa using hb
    exact Fin.ext (numbered_inj h (ea ▸ hf1 a) (eb ▸ hf1 b) (hy2 a) (hab ▸ hy2 b))
  · intro z hz
    obtain ⟨k, hk, hik, hn⟩ := numbered_complete h hq hx (List.mem_toFinset.mp hz)
    exact ⟨⟨k, hk⟩, by simpa using itemOf_fun (hf1 ⟨k, hk⟩) hik, numbered_fun (hy2 ⟨k, hk⟩) hn⟩

open scoped Classical in
/-- The number of entries in any state. -/
theorem arena_le_copies {g S input st} (h : Inv (ParseGrammar.newUnchecked g) input S st)
    (hfin : {x | Viable g S input x}.Finite) :
    st.tree.arena.length ≤ ∑ᶠ x ∈ {x | Viable g S input x}, begunCopies g x := by
  choose f hf1 hf2 using fun k : Fin st.tree.arena.length => itemOf_exists h k.2
  rw [finsum_mem_eq_finite_toFinset_sum _ hfin]
  have h1 : (Finset.univ : Finset (Fin st.tree.arena.length)).card = _ :=
    Finset.card_eq_sum_card_fiberwise (f := f) (s := Finset.univ) (t := hfin.toFinset) fun k _ => by simpa using hf2 k
  rw [Finset.card_univ, Fintype.card_fin] at h1
  rw [h1]
  refine Finset.sum_le_sum fun x hx => ?_
  rw [← begunLifts_length, ← List.toFinset_card_of_nodup (begunLifts_nodup g x)]
  choose y hy1 hy2 using fun k => itemOf_numbered (hf1 k)
  refine Finset.card_le_card_of_injOn y ?_ ?_
  · intro k hk
    have : f k = x := by simpa using hk
    simp only [List.coe_toFinset, Set.mem_ofPred_eq]
    rw [← this]; exact hy1 k
  · intro a ha b hb hab
    have ea : f a = x := by simpa using ha
    have eb : f b = x := by simpa using hb
    exact Fin.ext (numbered_inj h (ea ▸ hf1 a) (eb ▸ hf1 b) (hy2 a) (hab ▸ hy2 b))

end Bnf
