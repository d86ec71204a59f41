import Verif.Proofs.Iter
import Verif.Spec.Acyclic
import Mathlib.Data.Set.Finite.Lattice
import Mathlib.Data.Set.Finite.List
import Mathlib.Data.Fintype.Card
import Mathlib.Order.WellFounded

/-! Termination of the iterator on acyclic grammars. -/

set_option autoImplicit false

namespace Bnf

def DS (pg : ParseGrammar) (T : Term) (w : Str) : Set DNode := {d | VF pg [T] [d] ∧ dnodeYield d = w}
def FS (pg : ParseGrammar) (ts : List Term) (w : Str) : Set (List DNode) := {ks | VF pg ts ks ∧ dyield ks = w}

theorem VF.cons_inv {pg T ts ks} (h : VF pg (T :: ts) ks) : ∃ d ks', ks = d :: ks' ∧ VF pg [T] [d] ∧ VF pg ts ks' := by
  cases h with
  | leaf h => exact ⟨_, _, rfl, .leaf .nil, h⟩
  | node h1 h2 h3 h4 => exact ⟨_, _, rfl, .node h1 h2 h3 .nil, h4⟩

theorem VF.cons_app {pg T ts d ks} (h : VF pg [T] [d]) (h' : VF pg ts ks) : VF pg (T :: ts) (d :: ks) :=
  h.append h'

theorem list_fin {pg : ParseGrammar} (ts : List Term) : ∀ w,
    (∀ pre T post a u b ka kb, ts = pre ++ T :: post → w = a ++ u ++ b → VF pg pre ka → dyield ka = a →
      VF pg post kb → dyield kb = b → (DS pg T u).Finite) → (FS pg ts w).Finite := by
  induction ts with
  | nil =>
    intro w _
    refine (Set.finite_singleton []).subset ?_
    rintro ks ⟨h, _⟩
    cases h
    rfl
  | cons T ts ih =>
    intro w H
    have hfin : (⋃ i ∈ {i : Nat | i ≤ w.length}, Set.image2 List.cons (DS pg T (w.take i)) (FS pg ts (w.drop i))).Finite := by
      refine Set.Finite.biUnion (Set.finite_le_nat _) ?_
      intro i _
      by_cases h1 : (FS pg ts (w.drop i)).Nonempty
      · by_cases h2 : (DS pg T (w.take i)).Nonempty
        · obtain ⟨kb, hv, hy⟩ := h1
          obtain ⟨d, hdv, hdy⟩ := h2
          refine Set.Finite.image2 _ ?_ ?_
          · exact H [] T ts [] (w.take i) (w.drop i) [] kb rfl (by simp) .nil rfl hv hy
          · refine ih _ ?_
            intro pre T' post a u b ka kb' e1 e2 e3 e4 e5 e6
            refine H (T :: pre) T' post (w.take i ++ a) u b (d :: ka) kb' (by simp [e1]) ?_ (VF.cons_app hdv e3)
              (by simp [dyield, hdy, e4]) e5 e6
            calc w = w.take i ++ w.drop i := (List.take_append_drop i w).symm
              _ = _ := by rw [e2]; simp
        · rw [Set.not_nonempty_iff_eq_empty.mp h2]; simp
      · rw [Set.not_nonempty_iff_eq_empty.mp h1]; simp
    refine hfin.subset ?_
    rintro ks ⟨hv, hy⟩
    obtain ⟨d, ks', rfl, h1, h2⟩ := hv.cons_inv
    simp only [dyield] at hy
    simp only [Set.mem_iUnion, Set.mem_image2]
    refine ⟨(dnodeYield d).length, by simp [← hy], d, ⟨h1, ?_⟩, ks', ⟨h2, ?_⟩, rfl⟩
    · simp [← hy]
    · simp [← hy]

theorem list_toSet_finite {α : Type} (l : List α) : {x | x ∈ l}.Finite := by
  induction l with
  | nil => simp
  | cons a l ih =>
    have : {x | x ∈ a :: l} = insert a {x | x ∈ l} := by ext x; simp
    rw [this]; exact ih.insert a

theorem node_fin {pg : ParseGrammar} (n w : Str)
    (H : ∀ p ∈ pg.productions, p.lhs = .nonterminal n → (FS pg p.rhs.terms w).Finite) :
    (DS pg (.nonterminal n) w).Finite := by
  have hfin : (⋃ i ∈ {i : Nat | i < pg.productions.length}, (DNode.node i) ''
      {ks | ∃ p, pg.productions[i]? = some p ∧ p.lhs = .nonterminal n ∧ ks ∈ FS pg p.rhs.terms w}).Finite := by
    refine Set.Finite.biUnion (Set.finite_lt_nat _) ?_
    intro i hi
    refine Set.Finite.image _ ?_
    obtain ⟨p, hp⟩ : ∃ p, pg.productions[i]? = some p := ⟨_, List.getElem?_eq_getElem hi⟩
    by_cases hl : p.lhs = .nonterminal n
    · refine (H p (List.mem_iff_getElem?.mpr ⟨i, hp⟩) hl).subset ?_
      rintro ks ⟨p', hp', _, h⟩
      rw [hp] at hp'; injection hp' with hp'; subst hp'; exact h
    · refine Set.Finite.subset Set.finite_empty ?_
      rintro ks ⟨p', hp', hl', _⟩
      rw [hp] at hp'; injection hp' with hp'; subst hp'
      exact absurd hl' hl
  refine hfin.subset ?_
  rintro d ⟨hv, hy⟩
  cases hv with
  | @node pid p _ kids _ _ h1 h2 h3 _ =>
    simp only [Set.mem_iUnion]
    refine ⟨pid, (List.getElem?_eq_some_iff.mp h1).1, kids, ⟨p, h1, h2, h3, ?_⟩, rfl⟩
    simpa [dnodeYield] using hy

theorem term_fin {pg : ParseGrammar} (s w : Str) : (DS pg (.terminal s) w).Finite := by
  refine (Set.finite_singleton (DNode.leaf s)).subset ?_
  rintro d ⟨hv, _⟩
  cases hv
  rfl

theorem nullable_of_VF {g : Grammar} {ts ks} (h : VF (ParseGrammar.newUnchecked g) ts ks) (hy : dyield ks = []) :
    Spec.Nullable g ts := ⟨_, h.forest, by rw [yield_erase]; exact hy⟩

theorem fin_all {g : Grammar} (hwf : WellFounded fun m n => Spec.UnitStep g n m) :
    ∀ w T, (DS (ParseGrammar.newUnchecked g) T w).Finite := by
  intro w
  induction hk : w.length using Nat.strongRecOn generalizing w with
  | _ k ih =>
    subst hk
    intro T
    cases T with
    | terminal s => exact term_fin s w
    | nonterminal n =>
      induction n using hwf.induction with
      | _ n ihn =>
        refine node_fin n w ?_
        intro p hp hl
        refine list_fin _ w ?_
        intro pre T post a u b ka kb e1 e2 e3 e4 e5 e6
        by_cases hlen : u.length < w.length
        · exact ih _ hlen u rfl T
        · cases T with
          | terminal s => exact term_fin s u
          | nonterminal m =>
            have hlw : w.length = a.length + u.length + b.length := by rw [e2]; simp; omega
            have ha : a = [] := List.eq_nil_of_length_eq_zero (by omega)
            have hb : b = [] := List.eq_nil_of_length_eq_zero (by omega)
            subst ha hb
            have hu : u = w := by simpa using e2.symm
            subst hu
            obtain ⟨i, hi⟩ := List.mem_iff_getElem?.mp hp
            have ha := prod_hasAlt hi
            rw [hl] at ha
            exact ihn m ⟨p.rhs, pre, post, ha, e1, nullable_of_VF e3 e4, nullable_of_VF e5 e6⟩

theorem forest_fin {g : Grammar} (hwf : WellFounded fun m n => Spec.UnitStep g n m) (ts : List Term) (w : Str) :
    (FS (ParseGrammar.newUnchecked g) ts w).Finite :=
  list_fin ts w fun _ T _ _ u _ _ _ _ _ _ _ _ _ => fin_all hwf u T

/-- In a finite grammar acyclicity is well-foundedness. -/
theorem acyclic_wf {g : Grammar} (h : Spec.Acyclic g) : WellFounded fun m n => Spec.UnitStep g n m := by
  let L : Set Str := {n | ∃ p ∈ g.productions, p.lhs = .nonterminal n}
  have hL : L.Finite := by
    refine ((list_toSet_finite (g.productions.map (·.lhs))).preimage
      (f := Term.nonterminal) (fun a _ b _ e => by injection e)).subset ?_
    rintro n ⟨p, hp, hl⟩
    simp only [Set.mem_preimage, Set.mem_ofPred_eq, List.mem_map]
    exact ⟨p, hp, hl⟩
  let r : L → L → Prop := fun m n => Relation.TransGen (Spec.UnitStep g) n.1 m.1
  have : Finite L := hL
  have : IsTrans L r := ⟨fun a b c h1 h2 => Relation.TransGen.trans h2 h1⟩
  have : Std.Irrefl r := ⟨fun a ha => h a.1 ha⟩
  have hwf : WellFounded r := Finite.wellFounded_of_trans_of_irrefl r
  have key : ∀ n : L, Acc (fun m n => Spec.UnitStep g n m) n.1 := by
    intro n
    induction n using hwf.induction with
    | _ n ih =>
      refine ⟨_, fun m hm => ?_⟩
      by_cases hmL : m ∈ L
      · exact ih ⟨m, hmL⟩ (Relation.TransGen.single hm)
      · refine ⟨_, fun k hk => ?_⟩
        obtain ⟨e, _, _, ⟨p, hp, hl, _⟩, _⟩ := hk
        exact absurd ⟨p, hp, hl⟩ hmL
  refine ⟨fun n => ?_⟩
  by_cases hn : n ∈ L
  · exact key ⟨n, hn⟩
  · refine ⟨_, fun k hk => ?_⟩
    obtain ⟨e, _, _, ⟨p, hp, hl, _⟩, _⟩ := hk
    exact absurd ⟨p, hp, hl⟩ hn

/-- Bound on the number of entries. -/
theorem arena_bound {g : Grammar} (hwf : WellFounded fun m n => Spec.UnitStep g n m) (input : Str) (S : Term) :
    ∃ N, ∀ st, Inv (ParseGrammar.newUnchecked g) input S st → st.tree.arena.length ≤ N := by
  generalize hpg : ParseGrammar.newUnchecked g = pg
  let D : Set (List Term) := ⋃ p ∈ {p | p ∈ pg.productions}, {d | d ∈ p.rhs.terms.inits}
  let W : Set Str := ⋃ v ∈ {v | v ∈ input.tails}, {w | w ∈ v.inits}
  let K : Set (List DNode) := ⋃ d ∈ D, ⋃ w ∈ W, FS pg d w
  have hD : D.Finite := Set.Finite.biUnion (list_toSet_finite _) fun p _ => list_toSet_finite _
  have hW : W.Finite := Set.Finite.biUnion (list_toSet_finite _) fun p _ => list_toSet_finite _
  have hK : K.Finite := Set.Finite.biUnion hD fun d _ => Set.Finite.biUnion hW fun w _ => by
    rw [← hpg]; exact forest_fin hwf d w
  let F : Set (Nat × Nat × List DNode) := {i | i < pg.productions.length} ×ˢ ({i | i ≤ byteLen input} ×ˢ K)
  have hF : F.Finite := (Set.finite_lt_nat _).prod ((Set.finite_le_nat _).prod hK)
  refine ⟨hF.toFinset.card, ?_⟩
  intro st h
  have hex : ∀ k : Fin st.tree.arena.length, ∃ ks, Den st.tree.arena k ks ∧
      (st.tree.arena[k].prodId, st.tree.arena[k].range.start, ks) ∈ F := by
    intro k
    have hk : st.tree.arena[k.1]? = some st.tree.arena[k] := List.getElem?_eq_getElem k.2
    obtain ⟨ks, done, r, p, hd, hp, hts, hv, hf, hl⟩ := h.s.sem k.1 _ hk
    refine ⟨ks, hd, (List.getElem?_eq_some_iff.mp hp).1, ?_, ?_⟩
    · have := getFrom_len hf
      show st.tree.arena[k].range.start ≤ byteLen input
      omega
    · simp only [K, Set.mem_iUnion]
      refine ⟨done, ?_, dyield ks, ?_, hv, rfl⟩
      · simp only [D, Set.mem_iUnion]
        refine ⟨p, List.mem_iff_getElem?.mpr ⟨_, hp⟩, ?_⟩
        simp only [Set.mem_ofPred_eq, List.mem_inits]
        exact ⟨_, hts.symm⟩
      · simp only [W, Set.mem_iUnion]
        obtain ⟨u, hu, _⟩ := getFrom_split.mp hf
        refine ⟨dyield ks ++ r, ?_, ?_⟩
        · simp only [Set.mem_ofPred_eq, List.mem_tails]
          exact ⟨u, hu.symm⟩
        · simp only [Set.mem_ofPred_eq, List.mem_inits]
          exact ⟨r, rfl⟩
  choose f hf1 hf2 using hex
  have hinj : Function.Injective fun k : Fin st.tree.arena.length =>
      (st.tree.arena[k].prodId, st.tree.arena[k].range.start, f k) := by
    intro a b hab
    simp only [Prod.mk.injEq] at hab
    have hka : st.tree.arena[a.1]? = some st.tree.arena[a] := List.getElem?_eq_getElem a.2
    have hkb : st.tree.arena[b.1]? = some st.tree.arena[b] := List.getElem?_eq_getElem b.2
    have hd := hf1 a
    rw [hab.2.2] at hd
    exact Fin.ext (h.s.den_inj hd (hf1 b) hka hkb hab.1 hab.2.1)
  have := Finset.card_le_card_of_injOn (s := (Finset.univ : Finset (Fin st.tree.arena.length))) (t := hF.toFinset)
    (fun k => (st.tree.arena[k].prodId, st.tree.arena[k].range.start, f k)) (by
      intro k _
      simp only [Set.Finite.coe_toFinset]
      exact hf2 k) (fun a _ b _ e => hinj e)
  simpa using this

theorem nodup_range_length {ids : List Nat} {a b : Nat} (hab : a ≤ b) (hn : ids.Nodup)
    (h : ∀ k, k ∈ ids ↔ a ≤ k ∧ k < b) : ids.length = b - a := by
  have hp : ids.Perm (List.range' a (b - a)) := by
    rw [List.perm_ext_iff_of_nodup hn List.nodup_range']
    intro k
    rw [h, List.mem_range'_1]
    omega
  rw [hp.length_eq]; simp

theorem round_measure {pg input S} {st st' : PState} {id rest} (h' : Inv pg input S st')
    (hq : st.queue.queue = id :: rest) (he : Ext (st.pop rest).tree (st.pop rest).queue st'.tree st'.queue) :
    st'.tree.arena.length + st.queue.queue.length = st.tree.arena.length + st'.queue.queue.length + 1 := by
  obtain ⟨ids, hq', hids⟩ := he.queue
  have hle := he.len_le
  simp only [PState.pop] at hq' hids hle
  have hn := h'.s.qnodup
  rw [hq'] at hn
  have := nodup_range_length hle (List.nodup_append.mp hn).2.1 hids
  rw [hq', hq]
  simp
  omega

theorem queue_le {pg input S} {st : PState} (h : Inv pg input S st) : st.queue.queue.length ≤ st.tree.arena.length := by
  have := (h.s.qnodup.subperm (l₂ := List.range st.tree.arena.length) (by
    intro k hk; simp; exact h.s.qlt k hk)).length_le
  simpa using this

/-- With bounded arena every run reaches an empty queue. -/
theorem run_ends {pg input S} (hpg : PGOk pg) {N : Nat} (hN : ∀ st, Inv pg input S st → st.tree.arena.length ≤ N) :
    ∀ (m : Nat) (st : PState), Inv pg input S st → N + st.queue.queue.length - st.tree.arena.length ≤ m →
    ∃ ems st', Rounds pg st ems st' ∧ st'.queue.queue = [] := by
  intro m
  induction m with
  | zero =>
    intro st h hm
    have h1 := hN st h
    have h2 : st.queue.queue.length = 0 := by omega
    exact ⟨[], st, .refl, List.eq_nil_of_length_eq_zero h2⟩
  | succ m ih =>
    intro st h hm
    cases hq : st.queue.queue with
    | nil => exact ⟨[], st, .refl, hq⟩
    | cons id rest =>
      obtain ⟨st1, b, e, hi, he, _⟩ := h.round hpg hq
      have hme := round_measure hi hq he
      have h1 := hN st1 hi
      obtain ⟨ems, st2, hr, hq2⟩ := ih st1 hi (by omega)
      cases b with
      | true => exact ⟨id :: ems, st2, .emit hq e hr, hq2⟩
      | false => exact ⟨ems, st2, .quiet hq e hr, hq2⟩

/-- Draining ends when the arena is bounded. -/
theorem drain_ends {g : Grammar} {S : Term} {input : Str} {N : Nat}
    (hN : ∀ st, Inv (ParseGrammar.newUnchecked g) input S st → st.tree.arena.length ≤ N)
    {it : ParseTreeIter} (hi : ItInv g S input it) :
    ∃ ts it1 it2, Spec.Draws it ts it1 ∧ Spec.Next it1 none it2 := by
  obtain ⟨ems, st', hr, hq⟩ := run_ends (PGOk.newUnchecked g) hN _ it.st hi.inv (Nat.le_refl _)
  obtain ⟨ts, it1, hd, hr1, hi1, _⟩ := Rounds.draws hi hr
  obtain ⟨fuel, he⟩ := earley_none_of_rounds hr1 rfl hq
  refine ⟨ts, it1, { it1 with st := st' }, hd, fuel, ?_⟩
  unfold ParseTreeIter.next
  rw [hi1.pg, he]

end Bnf
