import Verif.Proofs.Opened
import Verif.Spec.Trap

/-! Exact termination criterion of the iterator. -/

set_option autoImplicit false

namespace Bnf
open Spec

theorem prefix_unique {a b r r' : Str} (h : a ++ r = b ++ r') (hl : byteLen a = byteLen b) : a = b := by
  have h1 := getFrom_append_left a r
  rw [h, hl, getFrom_append_left] at h1
  injection h1 with h1
  subst h1
  exact List.append_cancel_right h

/-- Every entry belongs to an expected term. -/
theorem entry_expected {g : Grammar} {input : Str} {S : Term} {t q}
    (h : SInv (ParseGrammar.newUnchecked g) input S t q) (k : Nat) :
    ∀ tr, t.arena[k]? = some tr → ∃ u ks done r p, Den t.arena k ks ∧
      (ParseGrammar.newUnchecked g).productions[tr.prodId]? = some p ∧ p.rhs.terms = done ++ tr.unmatched ∧
      VF (ParseGrammar.newUnchecked g) done ks ∧ input = u ++ dyield ks ++ r ∧ tr.range.start = byteLen u ∧
      tr.range.len = byteLen (dyield ks) ∧ Expected g S input u p.lhs := by
  induction k using Nat.strongRecOn with
  | _ k ih =>
    intro tr hk
    obtain ⟨ks, done, r, p, hd, hp, hts, hv, hf, hl⟩ := h.sem k tr hk
    obtain ⟨u, hu, hst⟩ := getFrom_split.mp hf
    refine ⟨u, ks, done, r, p, hd, hp, hts, hv, by rw [hu]; simp, hst, hl, ?_⟩
    cases hs : tr.src with
    | none =>
      rcases h.origin k tr p hk hs hp with ⟨h0, hS⟩ | ⟨w, tw, n, rest, hlt, hw, hn, hun, htot⟩
      · rw [h0] at hst
        have : u = [] := prefix_unique (r := dyield ks ++ r) (r' := input) (by rw [← hu]; rfl) (by rw [← hst]; rfl)
        rw [this, hS]
        exact .start
      · obtain ⟨uw, kw, dw, rw', pw, _, hpw, htw, hvw, hiw, hsw, hlw, hew⟩ := ih w hlt tw hw
        have : u = uw ++ dyield kw := by
          refine prefix_unique (r := dyield ks ++ r) (r' := rw') (by rw [← hu, hiw]) ?_
          simp only [Traversal.total, InputRange.totalLen] at htot
          rw [byteLen_append]
          omega
        rw [this, hn, ← yield_erase (ParseGrammar.newUnchecked g)]
        rw [hun] at htw
        exact .step hew (prod_hasAlt hpw) htw hvw.forest (by rw [yield_erase]; exact hiw)
    | some e =>
      obtain ⟨hlt, _, tp, htp, e1, e2, _⟩ := (h.entries k tr hk).link e hs
      obtain ⟨u', ks', _, r', p', _, hp', _, _, hi', hs', _, he'⟩ := ih _ hlt tp htp
      rw [← e1, hp] at hp'
      injection hp' with hp'
      subst hp'
      have : u = u' := prefix_unique (r := dyield ks ++ r) (r' := dyield ks' ++ r') (by rw [← hu, hi']; simp)
        (by rw [← hst, e2, hs'])
      rw [this]
      exact he'

theorem derives_of_VF {g : Grammar} {n w d} (h : VF (ParseGrammar.newUnchecked g) [.nonterminal n] [d])
    (hy : dnodeYield d = w) : Derives g (.nonterminal n) w := by
  cases h with
  | @node pid p _ kids _ _ h1 h2 h3 _ =>
    have := prod_hasAlt h1
    rw [h2] at this
    refine ⟨⟨.nonterminal n, erase (ParseGrammar.newUnchecked g) kids⟩, rfl, ⟨_, this, h3.forest⟩, ?_⟩
    simp only [yield_erase]
    simpa [dnodeYield] using hy

/-- Without a trap every expected term has finitely many derivations of every following text. -/
theorem fin_at {g : Grammar} {S : Term} {input : Str} (hno : ¬ Trap g S input) :
    ∀ (w u r : Str) (T : Term), input = u ++ w ++ r → (∀ n, T = .nonterminal n → Expected g S input u T) →
    (DS (ParseGrammar.newUnchecked g) T w).Finite := by
  intro w
  induction hk : w.length using Nat.strongRecOn generalizing w with
  | _ k ih =>
    subst hk
    intro u r T hin hex
    cases T with
    | terminal s => exact term_fin s w
    | nonterminal n =>
      have hexn := hex n rfl
      clear hex
      let P : Str → Prop := fun n => Expected g S input u (.nonterminal n) ∧ Derives g (.nonterminal n) w
      have hfinP : {n | P n}.Finite := by
        refine ((list_toSet_finite (g.productions.map (·.lhs))).preimage
          (f := Term.nonterminal) (fun a _ b _ e => by injection e)).subset ?_
        rintro n ⟨_, t, ht, ⟨e, ⟨p, hp, hl, _⟩, _⟩, _⟩
        simp only [Set.mem_preimage, Set.mem_ofPred_eq, List.mem_map]
        exact ⟨p, hp, by rw [hl, ht]⟩
      let rel : {n // P n} → {n // P n} → Prop := fun m n => Relation.TransGen (UnitStep g) n.1 m.1
      have : Finite {n // P n} := hfinP
      have : IsTrans {n // P n} rel := ⟨fun a b c h1 h2 => Relation.TransGen.trans h2 h1⟩
      have : Std.Irrefl rel := ⟨fun a ha => hno ⟨u, a.1, w, r, a.2.1, ha, a.2.2, hin⟩⟩
      have hwf : WellFounded rel := Finite.wellFounded_of_trans_of_irrefl rel
      have key : ∀ n : {n // P n}, (DS (ParseGrammar.newUnchecked g) (.nonterminal n.1) w).Finite := by
        intro n
        induction n using hwf.induction with
        | _ n ihn =>
          refine node_fin n.1 w ?_
          intro p hp hl
          refine list_fin _ w ?_
          intro pre T post a u' b ka kb e1 e2 e3 e4 e5 e6
          obtain ⟨i, hi⟩ := List.mem_iff_getElem?.mp hp
          have ha := prod_hasAlt hi
          rw [hl] at ha
          have hstep : ∀ m, T = .nonterminal m → Expected g S input (u ++ a) T := by
            rintro m rfl
            have := Expected.step (ns := erase (ParseGrammar.newUnchecked g) ka) (r := u' ++ b ++ r) n.2.1 ha e1 e3.forest
              (by rw [yield_erase, e4, hin, e2]; simp)
            rwa [yield_erase, e4] at this
          by_cases hlen : u'.length < w.length
          · exact ih _ hlen u' rfl (u ++ a) (b ++ r) T (by rw [hin, e2]; simp) hstep
          · cases T with
            | terminal s => exact term_fin s u'
            | nonterminal m =>
              have hlw : w.length = a.length + u'.length + b.length := by rw [e2]; simp; omega
              have ha' : a = [] := List.eq_nil_of_length_eq_zero (by omega)
              have hb : b = [] := List.eq_nil_of_length_eq_zero (by omega)
              subst ha' hb
              have hu : u' = w := by simpa using e2.symm
              subst hu
              by_cases hne : (DS (ParseGrammar.newUnchecked g) (.nonterminal m) u').Nonempty
              · obtain ⟨d, hd1, hd2⟩ := hne
                exact ihn ⟨m, by simpa using hstep m rfl, derives_of_VF hd1 hd2⟩
                  (.single ⟨p.rhs, pre, post, ha, e1, nullable_of_VF e3 e4, nullable_of_VF e5 e6⟩)
              · rw [Set.not_nonempty_iff_eq_empty.mp hne]; simp
      by_cases hne : (DS (ParseGrammar.newUnchecked g) (.nonterminal n) w).Nonempty
      · obtain ⟨d, hd1, hd2⟩ := hne
        exact key ⟨n, hexn, derives_of_VF hd1 hd2⟩
      · rw [Set.not_nonempty_iff_eq_empty.mp hne]; simp

/-- Without a trap the number of entries is bounded. -/
theorem arena_bound_notrap {g : Grammar} {S : Term} {input : Str} (hno : ¬ Trap g S input) :
    ∃ N, ∀ st, Inv (ParseGrammar.newUnchecked g) input S st → st.tree.arena.length ≤ N := by
  let pg := ParseGrammar.newUnchecked g
  let K : Set (Nat × Str × List DNode) := {x | ∃ p done rest r, pg.productions[x.1]? = some p ∧
    p.rhs.terms = done ++ rest ∧ VF pg done x.2.2 ∧ input = x.2.1 ++ dyield x.2.2 ++ r ∧ Expected g S input x.2.1 p.lhs}
  have hK : K.Finite := by
    let W : Str → Set Str := fun u => ⋃ v ∈ {v | v ∈ input.tails}, {w | w ∈ v.inits}
    have hsub : K ⊆ ⋃ i ∈ {i : Nat | i < pg.productions.length}, ⋃ u ∈ {u | u ∈ input.inits}, ⋃ w ∈ W u,
        ⋃ d ∈ ⋃ p ∈ {p | p ∈ pg.productions}, {d | d ∈ p.rhs.terms.inits},
        {x | x.1 = i ∧ x.2.1 = u ∧ ∃ p rest r, pg.productions[i]? = some p ∧ p.rhs.terms = d ++ rest ∧
          VF pg d x.2.2 ∧ dyield x.2.2 = w ∧ input = u ++ w ++ r ∧ Expected g S input u p.lhs} := by
      rintro ⟨i, u, ks⟩ ⟨p, done, rest, r, h1, h2, h3, h4, h5⟩
      simp only [Set.mem_iUnion, W]
      refine ⟨i, (List.getElem?_eq_some_iff.mp h1).1, u, ?_, dyield ks, ⟨dyield ks ++ r, ?_, ?_⟩, done,
        ⟨p, List.mem_iff_getElem?.mpr ⟨_, h1⟩, ?_⟩, rfl, rfl, p, rest, r, h1, h2, h3, rfl, h4, h5⟩
      · simp only [Set.mem_ofPred_eq, List.mem_inits]
        exact ⟨dyield ks ++ r, by simp only at h4; rw [h4]; simp⟩
      · simp only [Set.mem_ofPred_eq, List.mem_tails]
        exact ⟨u, by simp only at h4; rw [h4]; simp⟩
      · simp only [Set.mem_ofPred_eq, List.mem_inits]
        exact ⟨r, rfl⟩
      · simp only [Set.mem_ofPred_eq, List.mem_inits]
        exact ⟨rest, h2.symm⟩
    refine Set.Finite.subset ?_ hsub
    refine Set.Finite.biUnion (Set.finite_lt_nat _) fun i _ => Set.Finite.biUnion (list_toSet_finite _) fun u _ =>
      Set.Finite.biUnion (Set.Finite.biUnion (list_toSet_finite _) fun v _ => list_toSet_finite _) fun w _ =>
      Set.Finite.biUnion (Set.Finite.biUnion (list_toSet_finite _) fun p _ => list_toSet_finite _) fun d _ => ?_
    by_cases hne : ∃ p rest r, pg.productions[i]? = some p ∧ p.rhs.terms = d ++ rest ∧ input = u ++ w ++ r ∧
        Expected g S input u p.lhs
    · obtain ⟨p, rest, r, h1, h2, h3, h4⟩ := hne
      have hFS : (FS pg d w).Finite := by
        refine list_fin d w ?_
        intro pre T post a u' b ka kb e1 e2 e3 e4 e5 e6
        refine fin_at hno u' (u ++ a) (b ++ r) T (by rw [h3, e2]; simp) ?_
        rintro m rfl
        have := Expected.step (ns := erase (ParseGrammar.newUnchecked g) ka) (r := u' ++ b ++ r) (n := m) (post := post ++ rest) h4
          (prod_hasAlt h1) (by rw [h2, e1]; simp) (VF.forest e3) (by rw [yield_erase, e4, h3, e2]; simp)
        rwa [yield_erase, e4] at this
      refine (hFS.image fun ks => (i, u, ks)).subset ?_
      rintro ⟨i', u', ks⟩ ⟨rfl, rfl, p', rest', r', _, _, h3', h4', _⟩
      exact ⟨ks, ⟨h3', h4'⟩, rfl⟩
    · refine Set.Finite.subset Set.finite_empty ?_
      rintro x ⟨_, _, p', rest', r', h1, h2, _, _, h5, h6⟩
      exact hne ⟨p', rest', r', h1, h2, h5, h6⟩
  refine ⟨hK.toFinset.card, ?_⟩
  intro st h
  have hex : ∀ k : Fin st.tree.arena.length, ∃ ks u, Den st.tree.arena k ks ∧ st.tree.arena[k].range.start = byteLen u ∧
      (st.tree.arena[k].prodId, u, ks) ∈ K := by
    intro k
    have hk : st.tree.arena[k.1]? = some st.tree.arena[k] := List.getElem?_eq_getElem k.2
    obtain ⟨u, ks, done, r, p, hd, hp, hts, hv, hi, hst, _, he⟩ := entry_expected h.s k.1 _ hk
    exact ⟨ks, u, hd, hst, p, done, _, r, hp, hts, hv, hi, he⟩
  choose f uf hf1 hf2 hf3 using hex
  have hinj : Function.Injective fun k : Fin st.tree.arena.length =>
      (st.tree.arena[k].prodId, uf k, f k) := by
    intro a b hab
    simp only [Prod.mk.injEq] at hab
    have hka : st.tree.arena[a.1]? = some st.tree.arena[a] := List.getElem?_eq_getElem a.2
    have hkb : st.tree.arena[b.1]? = some st.tree.arena[b] := List.getElem?_eq_getElem b.2
    have hd := hf1 a
    rw [hab.2.2] at hd
    exact Fin.ext (h.s.den_inj hd (hf1 b) hka hkb hab.1 (by rw [hf2, hf2, hab.2.1]))
  have := Finset.card_le_card_of_injOn (s := (Finset.univ : Finset (Fin st.tree.arena.length))) (t := hK.toFinset)
    (fun k => (st.tree.arena[k].prodId, uf k, f k)) (by
      intro k _
      simp only [Set.Finite.coe_toFinset]
      exact hf3 k) (fun a _ b _ e => hinj e)
  simpa using this

/-- In a state with nothing left to do every alternative of an expected term has been predicted. -/
theorem expected_root {g : Grammar} {S : Term} {input : Str} {st : PState}
    (h : Inv (ParseGrammar.newUnchecked g) input S st) (hq : st.queue.queue = []) {u T} (he : Expected g S input u T) :
    ∀ (i : Nat) p, (ParseGrammar.newUnchecked g).productions[i]? = some p → p.lhs = T →
    ∃ k, st.tree.roots.get (i, byteLen u) = some k := by
  induction he with
  | start => exact fun i p hp hl => h.startRoots i p hp hl
  | @step u l e pre n post ns r _ ha hts hf hin ih =>
    intro i p hp hl
    obtain ⟨j, pj, hj, hlj, hrj⟩ := hasAlt_prod ha
    obtain ⟨k0, hk0⟩ := ih j pj hj hlj
    obtain ⟨tr0, htr0, hs0, hpr0, hst0⟩ := (h.s.roots _ _ _).mp hk0
    obtain ⟨hlen0, _, hun0⟩ := (h.s.entries k0 tr0 htr0).root hs0
    have ht0 : tr0.total = byteLen u := by simp only [Traversal.total, InputRange.totalLen]; omega
    obtain ⟨ks, hv, he'⟩ := forest_VF hf
    have hy : yield ns = dyield ks := by rw [← he', yield_erase]
    obtain ⟨e1, st1, id, tr, hr1, hid, hun, _, _, htot, _⟩ := eventually_extended (PGOk.newUnchecked g) hv
      (us := .nonterminal n :: post) (r := r) h htr0 (by rw [← hts, ← hrj]; exact hun0 pj (by rw [hpr0]; exact hj))
      (by rw [ht0, hin, hy, List.append_assoc, getFrom_append_left]) (.root htr0 hs0)
    obtain ⟨_, rfl⟩ := rounds_empty hr1 hq
    have hpop : Popped st1 id := ⟨(List.getElem?_eq_some_iff.mp hid).1, by rw [hq]; simp⟩
    obtain ⟨k, hk⟩ := h.k.pred id tr n post i p hpop hid hun hp hl
    refine ⟨k, ?_⟩
    rw [byteLen_append, hy, ← ht0, ← htot]
    exact hk

/-- An exhausted iterator has seen every forest for every alternative of an expected term that fits the input. -/
theorem ended_finite_at {g S input it0 it1 it2 ts} (hi0 : ItInv g S input it0)
    (hd : Draws it0 ts it1) (hn : Next it1 none it2) {u T} (hex : Expected g S input u T) {e : Expression} (ha : HasAlt g T e) :
    {ns | IsForest g e.terms ns ∧ ∃ r, input = u ++ Spec.yield ns ++ r}.Finite := by
  obtain ⟨_, _, hi1, _⟩ := hd.rounds hi0
  obtain ⟨_, hi2, hq, _⟩ := Next.none_rounds hi1 hn
  obtain ⟨i, p, hp, hl, hrhs⟩ := hasAlt_prod ha
  obtain ⟨k0, hk0⟩ := expected_root hi2.inv hq hex i p hp hl
  obtain ⟨tr0, htr0, hs0, hpr0, hst0⟩ := (hi2.inv.s.roots _ _ _).mp hk0
  obtain ⟨hlen0, _, hun0⟩ := (hi2.inv.s.entries k0 tr0 htr0).root hs0
  have ht0 : tr0.total = byteLen u := by simp only [Traversal.total, InputRange.totalLen]; omega
  have hsub : {ns | IsForest g e.terms ns ∧ ∃ r, input = u ++ Spec.yield ns ++ r} ⊆
      ⋃ k ∈ {k : Nat | k < it2.st.tree.arena.length},
        {ns | ∃ ks, Den it2.st.tree.arena k ks ∧ ns = erase (ParseGrammar.newUnchecked g) ks} := by
    rintro ns ⟨hf, r, hr⟩
    obtain ⟨ks, hv, he⟩ := forest_VF hf
    obtain ⟨e1, st1, id, tr, hr1, hid, _, _, _, _, hden⟩ := eventually_extended (PGOk.newUnchecked g) hv (us := [])
      (r := r) hi2.inv htr0 (by rw [List.append_nil, ← hrhs]; exact hun0 p (by rw [hpr0]; exact hp))
      (by rw [ht0, ← yield_erase (ParseGrammar.newUnchecked g), he, hr, List.append_assoc, getFrom_append_left])
      (.root htr0 hs0)
    obtain ⟨_, rfl⟩ := rounds_empty hr1 hq
    simp only [Set.mem_iUnion]
    exact ⟨id, (List.getElem?_eq_some_iff.mp hid).1, ks, by simpa using hden, he.symm⟩
  refine Set.Finite.subset (Set.Finite.biUnion (Set.finite_lt_nat _) ?_) hsub
  intro k _
  refine Set.Subsingleton.finite ?_
  rintro a ⟨ks, h1, rfl⟩ b ⟨ks', h2, rfl⟩
  rw [h1.fun h2]

mutual
/-- Number of nodes. -/
def trapNodeSize : ParseTreeNode → Nat
  | .terminal _ => 1
  | .nonterminal _ rhs => 1 + trapSize rhs
def trapSize : List ParseTreeNode → Nat
  | [] => 0
  | n :: ns => trapNodeSize n + trapSize ns
end

theorem trapSize_append (a b : List ParseTreeNode) : trapSize (a ++ b) = trapSize a + trapSize b := by
  induction a with
  | nil => simp [trapSize]
  | cons x a ih => simp [trapSize, ih]; omega

theorem yield_append_trap (a b : List ParseTreeNode) : Spec.yield (a ++ b) = Spec.yield a ++ Spec.yield b := by
  induction a with
  | nil => simp [Spec.yield]
  | cons x a ih => simp [Spec.yield, ih]

theorem forest_append_trap {g : Grammar} {ts ns ts' ns'} (h : IsForest g ts ns) (h' : IsForest g ts' ns') :
    IsForest g (ts ++ ts') (ns ++ ns') := by
  induction h with
  | nil => exact h'
  | terminal _ ih => exact .terminal ih
  | nonterminal h1 h2 _ _ ih => exact .nonterminal h1 h2 ih

/-- Derivations of `v` from `n`. -/
def Kids (g : Grammar) (n v : Str) : Set (List ParseTreeNode) :=
  {ns | ∃ e, HasAlt g (.nonterminal n) e ∧ IsForest g e.terms ns ∧ Spec.yield ns = v}

theorem unitStep_grows {g : Grammar} {n m v : Str} (h : UnitStep g n m) {ks} (hk : ks ∈ Kids g m v) :
    ∃ ks' ∈ Kids g n v, trapSize ks < trapSize ks' := by
  obtain ⟨e, pre, post, ha, hts, ⟨a, ha1, ha2⟩, ⟨b, hb1, hb2⟩⟩ := h
  obtain ⟨e', he', hf', hy'⟩ := hk
  refine ⟨a ++ .nonterminal (.nonterminal m) ks :: b, ⟨e, ha, ?_, ?_⟩, ?_⟩
  · rw [hts]
    exact forest_append_trap ha1 (.nonterminal he' hf' hb1)
  · rw [yield_append_trap, ha2]
    simp [Spec.yield, Spec.nodeYield, hb2, hy']
  · rw [trapSize_append]
    simp only [trapSize, trapNodeSize]
    omega

theorem transGen_grows {g : Grammar} {n m v : Str} (h : Relation.TransGen (UnitStep g) n m) :
    ∀ {ks}, ks ∈ Kids g m v → ∃ ks' ∈ Kids g n v, trapSize ks < trapSize ks' := by
  induction h with
  | single h => exact fun hk => unitStep_grows h hk
  | tail _ h ih =>
    intro ks hk
    obtain ⟨k1, hk1, l1⟩ := unitStep_grows h hk
    obtain ⟨k2, hk2, l2⟩ := ih hk1
    exact ⟨k2, hk2, by omega⟩

theorem cyclic_infinite {g : Grammar} {n v : Str} (hc : Cyclic g n) (hd : Derives g (.nonterminal n) v) :
    (Kids g n v).Infinite := by
  intro hfin
  obtain ⟨B, hB⟩ := (hfin.image trapSize).bddAbove
  obtain ⟨t, h1, ⟨e, h2, h3⟩, h4⟩ := hd
  rw [h1] at h2
  have h0 : t.rhs ∈ Kids g n v := ⟨e, h2, h3, h4⟩
  have key : ∀ k, ∃ ks ∈ Kids g n v, k ≤ trapSize ks := by
    intro k
    induction k with
    | zero => exact ⟨_, h0, Nat.zero_le _⟩
    | succ k ih =>
      obtain ⟨ks, hk, hl⟩ := ih
      obtain ⟨ks', hk', hl'⟩ := transGen_grows hc hk
      exact ⟨ks', hk', by omega⟩
  obtain ⟨ks, hk, hl⟩ := key (B + 1)
  have := hB ⟨ks, hk, rfl⟩
  omega

theorem hasAlt_finite (g : Grammar) (T : Term) : {e | HasAlt g T e}.Finite := by
  refine (Set.Finite.biUnion (list_toSet_finite g.productions) fun p _ => list_toSet_finite p.rhs).subset ?_
  rintro e ⟨p, hp, _, he⟩
  simp only [Set.mem_iUnion]
  exact ⟨p, hp, he⟩

/-- With a trap the iterator is never exhausted. -/
theorem trap_not_ended {g S input it0 it1 it2 ts} (hi0 : ItInv g S input it0)
    (hd : Draws it0 ts it1) (hn : Next it1 none it2) : ¬ Trap g S input := by
  rintro ⟨u, n, v, r, hex, hc, hder, hin⟩
  refine cyclic_infinite hc hder ?_
  refine (Set.Finite.biUnion (hasAlt_finite g (.nonterminal n)) fun e he => ended_finite_at hi0 hd hn hex he).subset ?_
  rintro ns ⟨e, he, hf, hy⟩
  simp only [Set.mem_iUnion]
  exact ⟨e, he, hf, r, by rw [hy]; exact hin⟩

/-- Annotated versions of one forest are finitely many. -/
theorem erase_fiber_finite (pg : ParseGrammar) (N : Nat) : ∀ (ts : List Term) (ns : List ParseTreeNode), trapSize ns ≤ N →
    {ks | VF pg ts ks ∧ erase pg ks = ns}.Finite := by
  induction N with
  | zero =>
    intro ts ns hn
    cases ns with
    | nil =>
      refine (Set.finite_singleton []).subset ?_
      rintro ks ⟨_, h⟩
      cases ks with
      | nil => rfl
      | cons d ks => simp [erase] at h
    | cons n ns => cases n <;> simp [trapSize, trapNodeSize] at hn
  | succ N ih =>
    intro ts ns hn
    cases ns with
    | nil =>
      refine (Set.finite_singleton []).subset ?_
      rintro ks ⟨_, h⟩
      cases ks with
      | nil => rfl
      | cons d ks => simp [erase] at h
    | cons n ns =>
      cases ts with
      | nil =>
        refine Set.Finite.subset Set.finite_empty ?_
        rintro ks ⟨h1, h2⟩
        cases h1
        simp [erase] at h2
      | cons T ts =>
        cases n with
        | terminal s =>
          have := ih ts ns (by simp [trapSize, trapNodeSize] at hn; omega)
          refine (this.image (DNode.leaf s :: ·)).subset ?_
          rintro ks ⟨h1, h2⟩
          cases h1 with
          | leaf h =>
            simp [erase, eraseNode] at h2
            exact ⟨_, ⟨h, h2.2⟩, by rw [h2.1]⟩
          | node => simp [erase, eraseNode] at h2
        | nonterminal T' rhs =>
          have h1 := ih ts ns (by simp [trapSize, trapNodeSize] at hn; omega)
          have h2 := fun (p : FlatProd) => ih p.rhs.terms rhs (by simp [trapSize, trapNodeSize] at hn; omega)
          refine (Set.Finite.biUnion (Set.finite_lt_nat pg.productions.length) fun i _ =>
            Set.Finite.biUnion (list_toSet_finite pg.productions) fun p _ =>
            Set.Finite.image2 (fun a b => DNode.node i a :: b) (h2 p) h1).subset ?_
          rintro ks ⟨hv, he⟩
          cases hv with
          | leaf h => simp [erase, eraseNode] at he
          | @node pid p _ kids _ _ g1 g2 g3 g4 =>
            simp [erase, eraseNode] at he
            simp only [Set.mem_iUnion, Set.mem_image2]
            exact ⟨pid, (List.getElem?_eq_some_iff.mp g1).1, p, List.mem_iff_getElem?.mpr ⟨_, g1⟩, kids, ⟨g3, he.1.2⟩, _,
              ⟨g4, he.2⟩, rfl⟩

/-- Finitely many parses: finitely many draws. -/
theorem draws_bounded {g S input it} (hi : ItInv g S input it) (hfin : {t | IsParse g S input t}.Finite) :
    ∃ N, ∀ ts it', Draws it ts it' → ts.length ≤ N := by
  let pg := ParseGrammar.newUnchecked g
  let K : Set (Nat × List DNode) := ⋃ t ∈ {t | IsParse g S input t}, ⋃ i ∈ {i : Nat | i < pg.productions.length},
    ⋃ p ∈ {p | p ∈ pg.productions}, (fun ks => (i, ks)) '' {ks | VF pg p.rhs.terms ks ∧ erase pg ks = t.rhs}
  have hK : K.Finite := Set.Finite.biUnion hfin fun t _ => Set.Finite.biUnion (Set.finite_lt_nat _) fun i _ =>
    Set.Finite.biUnion (list_toSet_finite _) fun p _ => Set.Finite.image _ (erase_fiber_finite pg _ _ _ (Nat.le_refl _))
  refine ⟨hK.toFinset.card, ?_⟩
  intro ts it' hd
  have hsound := draws_sound hi hd
  obtain ⟨ems, hr, hi', hf, _⟩ := hd.rounds hi
  obtain ⟨_, _, hnd, hm⟩ := hr.inv (PGOk.newUnchecked g) hi.inv
  rw [← hf.length_eq, ← List.toFinset_card_of_nodup hnd]
  have hex : ∀ id : Nat, ∃ x : Nat × List DNode, id ∈ ems → x ∈ K ∧ ∃ tr, it'.st.tree.arena[id]? = some tr ∧
      tr.prodId = x.1 ∧ tr.range.start = 0 ∧ Den it'.st.tree.arena id x.2 := by
    intro id
    by_cases hid : id ∈ ems
    · obtain ⟨tr, p, h1, hu, hp, hl, hst, _⟩ := ((hm id).mp hid).2.2
      obtain ⟨ks, done, r, q, d1, q1, t1, v1, _⟩ := hi'.inv.s.sem id tr h1
      rw [hp] at q1; injection q1 with q1; subst q1
      rw [hu, List.append_nil] at t1
      refine ⟨(tr.prodId, ks), fun _ => ⟨?_, tr, h1, rfl, hst, d1⟩⟩
      obtain ⟨t, ht, htree⟩ := forall₂_mem_left hf hid
      obtain ⟨x, ks', hx, hd', rfl⟩ := htree
      have := hd'.fun d1; subst this
      simp only [K, Set.mem_iUnion]
      exact ⟨_, hsound _ ht, tr.prodId, (List.getElem?_eq_some_iff.mp hp).1, p, List.mem_iff_getElem?.mpr ⟨_, hp⟩, ks',
        ⟨by rw [t1]; exact v1, rfl⟩, rfl⟩
    · exact ⟨(0, []), fun h => absurd h hid⟩
  choose f hf' using hex
  refine Finset.card_le_card_of_injOn f ?_ ?_
  · intro id hid
    simp only [Set.Finite.coe_toFinset]
    exact (hf' id (by simpa using hid)).1
  · intro a ha b hb hab
    obtain ⟨_, tr, h1, h2, h3, h4⟩ := hf' a (by simpa using ha)
    obtain ⟨_, tr', h1', h2', h3', h4'⟩ := hf' b (by simpa using hb)
    rw [hab] at h4
    exact hi'.inv.s.den_inj h4 h4' h1 h1' (by rw [h2, h2', hab]) (by rw [h3, h3'])

end Bnf
