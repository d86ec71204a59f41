import Verif.Proofs.Order
import Verif.Proofs.Multiplicity
import Verif.Spec.Order

/-! Simpler alternatives are completed earlier. -/

set_option autoImplicit false

namespace Bnf
open Spec

/-- The alternatives of a left-hand side are predicted together at every position, in the order of the list. -/
def Siblings (pg : ParseGrammar) (t : TravTree) : Prop :=
  ∀ (i j pos k : Nat) p p', pg.productions[i]? = some p → pg.productions[j]? = some p' → p.lhs = p'.lhs →
    t.roots.get (i, pos) = some k →
    ∃ k', t.roots.get (j, pos) = some k' ∧ (j < i → k' < k) ∧
      ∀ (x : Nat) tr, k < x → x < k' → t.arena[x]? = some tr → tr.src = none

theorem Siblings.mono {pg t t'} (h : Siblings pg t) (hlt : ∀ key k, t.roots.get key = some k → k < t.arena.length)
    (hr : t'.roots = t.roots) (ha : ∃ new, t'.arena = t.arena ++ new) : Siblings pg t' := by
  obtain ⟨new, ha⟩ := ha
  intro i j pos k p p' h1 h2 h3 h4
  rw [hr] at h4
  obtain ⟨k', h5, h6, h7⟩ := h i j pos k p p' h1 h2 h3 h4
  refine ⟨k', by rw [hr]; exact h5, h6, fun x tr hx1 hx2 hx => ?_⟩
  have := hlt _ _ h5
  rw [ha, List.getElem?_append_left (by omega)] at hx
  exact h7 x tr hx1 hx2 hx

theorem matchAll_roots (ms : List (Nat × TermMatch)) {t q t' q'} (hm : matchAll ms t q = some (t', q')) :
    t'.roots = t.roots ∧ ∃ new, t'.arena = t.arena ++ new := by
  induction ms generalizing t q with
  | nil =>
    simp only [matchAll, Option.some.injEq, Prod.mk.injEq] at hm
    obtain ⟨rfl, rfl⟩ := hm
    exact ⟨rfl, [], by simp⟩
  | cons x xs ih =>
    obtain ⟨par, m⟩ := x
    rw [matchAll] at hm
    cases hmt : t.matchTerm par m with
    | none => rw [hmt] at hm; cases hm
    | some r =>
      obtain ⟨id, t1⟩ := r
      rw [hmt] at hm
      simp only at hm
      obtain ⟨h1, new, h2⟩ := ih hm
      have : t1.roots = t.roots ∧ ∃ new, t1.arena = t.arena ++ new := by
        unfold TravTree.matchTerm at hmt
        split at hmt
        · cases hmt
        · split at hmt
          · cases hmt
          · split at hmt
            · cases hmt
            · simp only at hmt
              split at hmt
              · simp only [Option.some.injEq, Prod.mk.injEq] at hmt
                obtain ⟨_, rfl⟩ := hmt
                exact ⟨rfl, [], by simp⟩
              · simp only [Option.some.injEq, Prod.mk.injEq] at hmt
                obtain ⟨_, rfl⟩ := hmt
                exact ⟨rfl, _, rfl⟩
      obtain ⟨h3, new', h4⟩ := this
      exact ⟨h1.trans h3, new' ++ new, by rw [h2, h4]; simp⟩

/-- What the prediction loop does to the roots. -/
theorem predictAll_roots {range : InputRange} {flag : Bool} (ps : List FlatProd) (hps : ps.Pairwise fun p p' => p.id < p'.id) {t q} :
    (∃ new, (predictAll range flag ps t q).1.arena = t.arena ++ new ∧ ∀ tr ∈ new, tr.src = none) ∧
    (∀ key k, t.roots.get key = some k → (predictAll range flag ps t q).1.roots.get key = some k) ∧
    (∀ key k, t.roots.get key = none → (predictAll range flag ps t q).1.roots.get key = some k →
      t.arena.length ≤ k ∧ ∃ p ∈ ps, key = (p.id, range.totalLen)) ∧
    (∀ p ∈ ps, ∃ k, (predictAll range flag ps t q).1.roots.get (p.id, range.totalLen) = some k) ∧
    (∀ p ∈ ps, ∀ p' ∈ ps, p'.id < p.id → t.roots.get (p.id, range.totalLen) = none → t.roots.get (p'.id, range.totalLen) = none →
      ∀ k k', (predictAll range flag ps t q).1.roots.get (p.id, range.totalLen) = some k →
      (predictAll range flag ps t q).1.roots.get (p'.id, range.totalLen) = some k' → k' < k) := by
  induction ps generalizing t q with
  | nil =>
    refine ⟨⟨[], by simp [predictAll], by simp⟩, fun _ _ h => h, fun key k h h' => ?_, by simp, by simp⟩
    simp only [predictAll] at h'
    rw [h] at h'; cases h'
  | cons p ps ih =>
    obtain ⟨hp1, hp2⟩ := List.pairwise_cons.mp hps
    simp only [predictAll]
    unfold TravTree.predict
    simp only
    split
    · rename_i id hid
      obtain ⟨a1, a2, a3, a4, a5⟩ := ih hp2 (t := t) (q := q.pushBack id)
      refine ⟨a1, a2, ?_, ?_, ?_⟩
      · intro key k h h'
        obtain ⟨b1, p', b2, b3⟩ := a3 key k h h'
        exact ⟨b1, p', by simp [b2], b3⟩
      · intro p' hp'
        rcases List.mem_cons.mp hp' with rfl | hp'
        · exact ⟨id, a2 _ _ hid⟩
        · exact a4 p' hp'
      · intro x hx y hy hlt hx0 hy0
        rcases List.mem_cons.mp hx with rfl | hx
        · rw [hid] at hx0; cases hx0
        · rcases List.mem_cons.mp hy with rfl | hy
          · rw [hid] at hy0; cases hy0
          · exact a5 x hx y hy hlt hx0 hy0
    · rename_i hnone
      simp only
      obtain ⟨⟨new, a0, a1⟩, a2, a3, a4, a5⟩ := ih hp2 (t := ⟨t.arena ++ [⟨t.arena.length, p.rhs.terms, range.after, p.id, flag, none⟩],
          t.roots.set (p.id, range.totalLen) t.arena.length, t.edges⟩) (q := q.pushBack t.arena.length)
      have hself : (t.roots.set (p.id, range.totalLen) t.arena.length).get (p.id, range.totalLen) = some t.arena.length := by
        rw [AMap.get_set, if_pos rfl]
      have hother : ∀ key, (p.id, range.totalLen) ≠ key →
          (t.roots.set (p.id, range.totalLen) t.arena.length).get key = t.roots.get key := by
        intro key hk; rw [AMap.get_set, if_neg hk]
      have hne : ∀ p' ∈ ps, (p.id, range.totalLen) ≠ (p'.id, range.totalLen) := by
        intro p' hp' h
        have := hp1 p' hp'
        injection h with h
        omega
      refine ⟨⟨_ :: new, by rw [a0]; simp; rfl, ?_⟩, ?_, ?_, ?_, ?_⟩
      · intro tr htr
        rcases List.mem_cons.mp htr with rfl | htr
        · rfl
        · exact a1 tr htr
      · intro key k h
        by_cases hk : (p.id, range.totalLen) = key
        · rw [← hk, hnone] at h; cases h
        · exact a2 key k (by rw [hother key hk]; exact h)
      · intro key k h h'
        by_cases hk : (p.id, range.totalLen) = key
        · rw [← hk, a2 _ _ hself] at h'
          injection h' with h'
          exact ⟨by omega, p, by simp, hk.symm⟩
        · obtain ⟨b1, p', b2, b3⟩ := a3 key k (by rw [hother key hk]; exact h) h'
          simp at b1
          exact ⟨by omega, p', by simp [b2], b3⟩
      · intro p' hp'
        rcases List.mem_cons.mp hp' with rfl | hp'
        · exact ⟨_, a2 _ _ hself⟩
        · exact a4 p' hp'
      · intro x hx y hy hlt hx0 hy0 k k' hk hk'
        rcases List.mem_cons.mp hx with rfl | hx'
        · exfalso
          rcases List.mem_cons.mp hy with rfl | hy'
          · omega
          · have := hp1 y hy'; omega
        · rcases List.mem_cons.mp hy with rfl | hy'
          · rw [a2 _ _ hself] at hk'
            injection hk' with hk'
            obtain ⟨b1, _⟩ := a3 _ k (by rw [hother _ (hne x hx')]; exact hx0) hk
            simp at b1
            omega
          · exact a5 x hx' y hy' hlt (by rw [hother _ (hne x hx')]; exact hx0) (by rw [hother _ (hne y hy')]; exact hy0) k k' hk hk'

theorem predictAll_lt {range : InputRange} {flag : Bool} (ps : List FlatProd) {t q}
    (hlt : ∀ key k, t.roots.get key = some k → k < t.arena.length) :
    ∀ key k, (predictAll range flag ps t q).1.roots.get key = some k → k < (predictAll range flag ps t q).1.arena.length := by
  induction ps generalizing t q with
  | nil => exact hlt
  | cons p ps ih =>
    simp only [predictAll]
    apply ih
    unfold TravTree.predict
    simp only
    split
    · exact hlt
    · intro key k hk
      simp only [AMap.get_set] at hk
      simp only [List.length_append, List.length_singleton]
      split at hk
      · injection hk with hk; omega
      · have := hlt key k hk; omega

theorem prods_sorted {pg : ParseGrammar} (hpg : PGOk pg) : pg.productions.Pairwise fun p p' => p.id < p'.id := by
  rw [List.pairwise_iff_getElem]
  intro i j hi hj hlt
  rw [hpg.id_eq i _ (List.getElem?_eq_getElem hi), hpg.id_eq j _ (List.getElem?_eq_getElem hj)]
  exact hlt

theorem Siblings.predict {pg : ParseGrammar} (hpg : PGOk pg) {t : TravTree} {q : TravQueue} (h : Siblings pg t)
    (hlt : ∀ key k, t.roots.get key = some k → k < t.arena.length) (range : InputRange) (flag : Bool) (l : Term) :
    Siblings pg (predictAll range flag (pg.productions.filter fun p => p.lhs = l) t q).1 := by
  obtain ⟨⟨new, a0, a1⟩, a2, a3, a4, a5⟩ := predictAll_roots (range := range) (flag := flag)
    (pg.productions.filter fun p => p.lhs = l) ((prods_sorted hpg).filter _) (t := t) (q := q)
  have hmem : ∀ {p}, p ∈ pg.productions.filter (fun p => p.lhs = l) → p.lhs = l := by
    intro p hp; simpa using (List.mem_filter.mp hp).2
  intro i j pos k p p' h1 h2 h3 h4
  have hi := hpg.id_eq i p h1
  have hj := hpg.id_eq j p' h2
  have hx : ∀ {x : Nat} {tr}, t.arena.length ≤ x → (predictAll range flag (pg.productions.filter fun p => p.lhs = l) t q).1.arena[x]? = some tr →
      tr.src = none := by
    intro x tr hx htr
    rw [a0, List.getElem?_append_right hx] at htr
    exact a1 tr (List.mem_of_getElem? htr)
  cases h0 : t.roots.get (i, pos) with
  | some k0 =>
    rw [a2 _ _ h0] at h4
    injection h4 with h4
    subst h4
    obtain ⟨k', b1, b2, b3⟩ := h i j pos k0 p p' h1 h2 h3 h0
    refine ⟨k', a2 _ _ b1, b2, fun x tr hx1 hx2 hxt => ?_⟩
    have := hlt _ _ b1
    rw [a0, List.getElem?_append_left (by omega)] at hxt
    exact b3 x tr hx1 hx2 hxt
  | none =>
    obtain ⟨hk, x, hxm, hxe⟩ := a3 _ _ h0 h4
    injection hxe with e1 e2
    have hl : p.lhs = l := by
      rw [e1] at h1
      obtain ⟨y, hy⟩ := List.mem_iff_getElem?.mp (List.mem_filter.mp hxm).1
      have := hpg.id_eq y x hy
      rw [← this, h1] at hy
      injection hy with hy
      rw [hy]
      exact hmem hxm
    have hm : p ∈ pg.productions.filter (fun p => p.lhs = l) :=
      List.mem_filter.mpr ⟨List.mem_of_getElem? h1, by simpa using hl⟩
    have hm' : p' ∈ pg.productions.filter (fun p => p.lhs = l) :=
      List.mem_filter.mpr ⟨List.mem_of_getElem? h2, by simpa using h3.symm.trans hl⟩
    obtain ⟨k', hk'⟩ := a4 p' hm'
    rw [hj, ← e2] at hk'
    have h0' : t.roots.get (j, pos) = none := by
      cases hc : t.roots.get (j, pos) with
      | none => rfl
      | some z =>
        obtain ⟨z', hz', _⟩ := h j i pos z p' p h2 h1 h3.symm hc
        rw [h0] at hz'; cases hz'
    refine ⟨k', hk', fun hji => ?_, fun x tr hx1 _ hxt => hx (by omega) hxt⟩
    exact a5 p hm p' hm' (by omega) (by rw [hi, ← e2]; exact h0) (by rw [hj, ← e2]; exact h0') k k'
      (by rw [hi, ← e2]; exact h4) (by rw [hj, ← e2]; exact hk')

theorem Siblings.round {pg input S} (hpg : PGOk pg) {st : PState} (hi : Inv pg input S st) (h : Siblings pg st.tree)
    {id rest st' b} (hq : st.queue.queue = id :: rest) (hr : earleyRound pg (st.pop rest) id = some (st', b)) :
    Siblings pg st'.tree := by
  have hlt0 : ∀ key k, st.tree.roots.get key = some k → k < st.tree.arena.length := by
    intro key k hk
    obtain ⟨tr, htr, _⟩ := (hi.s.roots _ _ _).mp hk
    exact (List.getElem?_eq_some_iff.mp htr).1
  obtain ⟨tr, htr⟩ : ∃ tr, st.tree.arena[id]? = some tr :=
    ⟨_, List.getElem?_eq_getElem (hi.s.qlt id (by rw [hq]; simp))⟩
  obtain ⟨p, hp⟩ := (hi.s.entries id tr htr).prod
  have hget : (st.pop rest).tree.get id = some tr := htr
  have hpid : pg.prodById tr.prodId = some p := hp
  unfold earleyRound at hr
  rw [hget] at hr
  simp only [Traversal.nextUnmatched] at hr
  cases hu : tr.unmatched with
  | nil =>
    simp only [hu, List.head?_nil, hpid] at hr
    split at hr
    · cases hr
    · rename_i tree queue hm
      simp only [Option.some.injEq, Prod.mk.injEq] at hr
      obtain ⟨rfl, _⟩ := hr
      obtain ⟨h1, h2⟩ := matchAll_roots _ hm
      exact h.mono hlt0 h1 h2
  | cons T ts =>
    cases T with
    | terminal s =>
      simp only [hu, List.head?_cons] at hr
      split at hr
      · split at hr
        · cases hr
        · rename_i tree queue hm
          simp only [Option.some.injEq, Prod.mk.injEq] at hr
          obtain ⟨rfl, _⟩ := hr
          obtain ⟨h1, h2⟩ := matchAll_roots _ hm
          exact h.mono hlt0 h1 h2
      · simp only [Option.some.injEq, Prod.mk.injEq] at hr
        obtain ⟨rfl, _⟩ := hr
        exact h
    | nonterminal n =>
      simp only [hu, List.head?_cons, hpid, hpg.prodsFor] at hr
      split at hr
      · cases hr
      · rename_i tree queue hm
        simp only [Option.some.injEq, Prod.mk.injEq] at hr
        obtain ⟨rfl, _⟩ := hr
        obtain ⟨h1, h2⟩ := matchAll_roots _ hm
        refine (h.predict hpg (q := (st.pop rest).queue) hlt0 tr.range false (.nonterminal n)).mono ?_ h1 h2
        exact predictAll_lt _ (t := st.tree) hlt0

theorem Rounds.siblings {pg input S} (hpg : PGOk pg) {st ems st'} (hr : Rounds pg st ems st') :
    Inv pg input S st → Siblings pg st.tree → Siblings pg st'.tree := by
  induction hr with
  | refl => exact fun _ h => h
  | quiet hq hr _ ih => exact fun hi h => ih (Later.of_round hpg hi hq hr).1 (h.round hpg hi hq hr)
  | emit hq hr _ ih => exact fun hi h => ih (Later.of_round hpg hi hq hr).1 (h.round hpg hi hq hr)

theorem new_siblings {g : Grammar} {p : GrammarParser} (hp : p.parseGrammar = ParseGrammar.newUnchecked g) {input : Str} {s : Option Term} {it}
    (h : ParseTreeIter.new p input s = some it) : Siblings (ParseGrammar.newUnchecked g) it.st.tree := by
  unfold ParseTreeIter.new at h
  rw [hp, (PGOk.newUnchecked g).prodsFor] at h
  simp only [Option.some.injEq] at h
  subst h
  refine Siblings.predict (PGOk.newUnchecked g) (t := ⟨[], [], []⟩) ?_ ?_ _ _ _
  · intro i j pos k p p' _ _ _ h; simp [AMap.get] at h
  · intro key k h; simp [AMap.get] at h

theorem Spec.Opened.siblings {g S input it} (h : Opened g S input it) : Siblings (ParseGrammar.newUnchecked g) it.st.tree := by
  cases h with
  | parserStarting hb hi => exact new_siblings (buildParser_ok hb).2 hi
  | parser hb _ hi => exact new_siblings (buildParser_ok hb).2 hi
  | deprecatedStarting hi =>
    unfold Grammar.parseInputStartingWithDeprecated Grammar.newUnchecked at hi
    split at hi
    · cases hi
    · rename_i p hp
      split at hp
      · cases hp
      · injection hp with hp
        exact new_siblings (by rw [← hp]) hi
  | deprecated _ hi =>
    unfold Grammar.parseInputDeprecated Grammar.newUnchecked at hi
    split at hi
    · cases hi
    · rename_i p hp
      split at hp
      · cases hp
      · injection hp with hp
        exact new_siblings (by rw [← hp]) hi

section
variable {pg : ParseGrammar} {input : Str} {S : Term} {st : PState} {h : Nat}

/-- The nodes of a traversal are completed traversals at the right place. -/
theorem child_at (hs : SInv pg input S st.tree st.queue) {k : Nat} {ks} (hd : Den st.tree.arena k ks) :
    ∀ {tr : Traversal} {i pid : Nat} {kids}, st.tree.arena[k]? = some tr → ks[i]? = some (.node pid kids) →
    ∃ c tc pc n, c < k ∧ st.tree.arena[c]? = some tc ∧ tc.prodId = pid ∧ tc.unmatched = [] ∧ pg.productions[pid]? = some pc ∧
      pc.lhs = .nonterminal n ∧ Den st.tree.arena c kids ∧ tc.range.start = tr.range.start + byteLen (dyield (ks.take i)) := by
  induction hd with
  | root _ _ => intro tr i pid kids _ h; simp at h
  | @leaf k t s par ks hk hsrc hdp ih =>
    intro tr i pid kids htr hi
    rw [hk] at htr; injection htr with htr; subst htr
    obtain ⟨hlt, _, tp, htp, _⟩ := (hs.entries k t hk).link _ hsrc
    simp only at hlt htp
    obtain ⟨tr', htr', _, e2, _, e4, _⟩ := leaf_entry hs ((hs.edges _ _).mpr ⟨t, hk, hsrc⟩) htp hdp
    rw [hk] at htr'; injection htr' with htr'; subst htr'
    rcases (getElem?_snoc _ _ _ _).mp hi with hi | ⟨_, hi⟩
    · obtain ⟨c, tc, pc, n, h1, h2, h3, h4, h5, h6, h7, h8⟩ := ih htp hi
      have := (List.getElem?_eq_some_iff.mp hi).1
      exact ⟨c, tc, pc, n, by omega, h2, h3, h4, h5, h6, h7, by rw [h8, e2, List.take_append_of_le_length (by omega)]⟩
    · cases hi
  | @node k t c par ks tc kids hk hsrc hdp hc hdc ih1 ih2 =>
    intro tr i pid kids' htr hi
    rw [hk] at htr; injection htr with htr; subst htr
    obtain ⟨hlt, hbel, tp, htp, _⟩ := (hs.entries k t hk).link _ hsrc
    simp only [TermMatch.below] at hlt htp hbel
    obtain ⟨tr', pc, n, htr', _, e2, _, e4, e5, e6, e7, e8, _⟩ := node_entry hs ((hs.edges _ _).mpr ⟨t, hk, hsrc⟩) htp hc hdp hdc
    rw [hk] at htr'; injection htr' with htr'; subst htr'
    rcases (getElem?_snoc _ _ _ _).mp hi with hi | ⟨rfl, hi'⟩
    · obtain ⟨c, tc, pc, n, h1, h2, h3, h4, h5, h6, h7, h8⟩ := ih1 htp hi
      have := (List.getElem?_eq_some_iff.mp hi).1
      exact ⟨c, tc, pc, n, by omega, h2, h3, h4, h5, h6, h7, by rw [h8, e2, List.take_append_of_le_length (by omega)]⟩
    · injection hi' with hi1 hi2
      subst hi1 hi2
      refine ⟨c, tc, pc, n, hbel, hc, rfl, e5, e6, e7, hdc, ?_⟩
      rw [e8, List.take_left, e2, ← den_len hs htp hdp]
      rfl

/-- Annotated version of `Simpler`. -/
def DSimpler (ks' ks : List DNode) : Prop :=
  ∀ i < ks'.length, (∃ s, ks'[i]? = some (.leaf s)) ∨ (ks'[i]? = ks[i]? ∧ dyield (ks'.take i) = dyield (ks.take i))

/-- A simpler alternative is matched earlier. -/
theorem simpler_entry (hpg : PGOk pg) (hi : Inv pg input S st) (ho : OInv st h) (hsib : Siblings pg st.tree) {k : Nat} {ks}
    (hd : Den st.tree.arena k ks) : ∀ {tr p j p' ks' rest r}, st.tree.arena[k]? = some tr → pg.productions[tr.prodId]? = some p →
    pg.productions[j]? = some p' → p.lhs = p'.lhs → p'.rhs.terms = (ks'.map fun d => rootTerm (eraseNode pg d)) ++ rest →
    getFrom input tr.range.start = some (dyield ks' ++ r) → DSimpler ks' ks →
    (ks'.length < ks.length ∨ (ks'.length = ks.length ∧ j < tr.prodId)) →
    ∃ k0 tr0, k0 < k ∧ st.tree.arena[k0]? = some tr0 ∧ tr0.prodId = j ∧ tr0.range.start = tr.range.start ∧ tr0.unmatched = rest ∧
      tr0.range.len = byteLen (dyield ks') ∧ Den st.tree.arena k0 ks' := by
  have hs := hi.s
  -- the root of the other alternative
  have hroot : ∀ {k tr p j p'}, st.tree.arena[k]? = some tr → tr.src = none → pg.productions[tr.prodId]? = some p →
      pg.productions[j]? = some p' → p.lhs = p'.lhs → ∃ k0 tr0, st.tree.arena[k0]? = some tr0 ∧ tr0.prodId = j ∧
        tr0.range.start = tr.range.start ∧ tr0.unmatched = p'.rhs.terms ∧ tr0.range.len = 0 ∧ Den st.tree.arena k0 [] ∧
        (j < tr.prodId → k0 < k) ∧ tr0.src = none ∧ ∀ (x : Nat) trx, k < x → x < k0 → st.tree.arena[x]? = some trx → trx.src = none := by
    intro k tr p j p' hk hsrc hp hp' hl
    obtain ⟨k0, h1, h2, h3⟩ := hsib tr.prodId j tr.range.start k p p' hp hp' hl ((hs.roots _ _ _).mpr ⟨tr, hk, hsrc, rfl, rfl⟩)
    obtain ⟨tr0, h4, h5, h6, h7⟩ := (hs.roots _ _ _).mp h1
    obtain ⟨h8, _, h9⟩ := (hs.entries k0 tr0 h4).root h5
    exact ⟨k0, tr0, h4, h6, h7, h9 p' (by rw [h6]; exact hp'), h8, .root h4 h5, h2, h5, h3⟩
  have step : ∀ {k t par m ks d}, st.tree.arena[k]? = some t → t.src = some ⟨m, par⟩ → Den st.tree.arena par ks →
      Den st.tree.arena k (ks ++ [d]) → (∀ pid kids, d = .node pid kids → ∃ c, m = .nonterminal c ∧ Den st.tree.arena c kids) →
      (∀ {tr p j p' ks' rest r}, st.tree.arena[par]? = some tr → pg.productions[tr.prodId]? = some p →
        pg.productions[j]? = some p' → p.lhs = p'.lhs → p'.rhs.terms = (ks'.map fun d => rootTerm (eraseNode pg d)) ++ rest →
        getFrom input tr.range.start = some (dyield ks' ++ r) → DSimpler ks' ks →
        (ks'.length < ks.length ∨ (ks'.length = ks.length ∧ j < tr.prodId)) →
        ∃ k0 tr0, k0 < par ∧ st.tree.arena[k0]? = some tr0 ∧ tr0.prodId = j ∧ tr0.range.start = tr.range.start ∧ tr0.unmatched = rest ∧
          tr0.range.len = byteLen (dyield ks') ∧ Den st.tree.arena k0 ks') →
      ∀ {p j p' ks' rest r}, pg.productions[t.prodId]? = some p →
      pg.productions[j]? = some p' → p.lhs = p'.lhs → p'.rhs.terms = (ks'.map fun d => rootTerm (eraseNode pg d)) ++ rest →
      getFrom input t.range.start = some (dyield ks' ++ r) → DSimpler ks' (ks ++ [d]) →
      (ks'.length < (ks ++ [d]).length ∨ (ks'.length = (ks ++ [d]).length ∧ j < t.prodId)) →
      ∃ k0 tr0, k0 < k ∧ st.tree.arena[k0]? = some tr0 ∧ tr0.prodId = j ∧ tr0.range.start = t.range.start ∧ tr0.unmatched = rest ∧
        tr0.range.len = byteLen (dyield ks') ∧ Den st.tree.arena k0 ks' := by
    intro k t par m ks d hk hsrc hdp hdk hdm ih p j p' ks' rest r hp hp' hl hterms hfrom hsim hlen
    obtain ⟨hlt, _, tp, htp, e1, e2, _⟩ := (hs.entries k t hk).link _ hsrc
    simp only at hlt htp
    have hpast := ho.past k t _ hk hsrc
    have hpopped : ∀ {x : Nat}, x < par → Popped st x := by
      intro x hx
      refine (ho.popped x).mpr ?_
      simp only [Edge.round] at hpast
      omega
    rw [List.length_append, List.length_singleton] at hlen
    rcases List.eq_nil_or_concat ks' with rfl | ⟨ks0, d', rfl⟩
    · -- nothing matched yet: the root
      cases hks : ks with
      | nil =>
        rw [hks] at hdp
        have hps : tp.src = none := by
          generalize hz : ([] : List DNode) = z at hdp
          cases hdp with
          | root h1 h2 => rw [htp] at h1; injection h1 with h1; rw [h1]; exact h2
          | leaf _ _ _ => simp at hz
          | node _ _ _ _ _ => simp at hz
        obtain ⟨k0, tr0, g1, g2, g3, g4, g5, g6, _, g8, g7⟩ := hroot htp hps (by rw [← e1]; exact hp) hp' hl
        refine ⟨k0, tr0, ?_, g1, g2, by rw [g3, e2], by rw [g4, hterms]; simp, by rw [g5]; simp [dyield, byteLen], g6⟩
        by_contra hge
        rcases Nat.lt_or_ge k k0 with hlt' | hge'
        · have := g7 k t hlt hlt' hk
          rw [hsrc] at this; cases this
        · have : k0 = k := by omega
          subst this
          rw [hk] at g1; injection g1 with g1; subst g1
          rw [hsrc] at g8; cases g8
      | cons a as =>
        obtain ⟨k0, tr0, g1, g2, g3, g4, g5, g6, g7⟩ := ih (ks' := []) htp (by rw [← e1]; exact hp) hp' hl hterms (by rw [← e2]; exact hfrom)
          (by intro i hi'; simp at hi') (.inl (by rw [hks]; simp))
        exact ⟨k0, tr0, by omega, g2, g3, by rw [g4, e2], g5, g6, g7⟩
    · rw [List.concat_eq_append] at *
      rw [List.length_append, List.length_singleton] at hlen
      rw [List.map_append, List.append_assoc] at hterms
      rw [dyield_append, List.append_assoc] at hfrom
      have hsim0 : DSimpler ks0 ks := by
        intro i hi'
        have := hsim i (by simp; omega)
        rw [List.getElem?_append_left hi', List.take_append_of_le_length (by omega), List.getElem?_append_left (by omega),
          List.take_append_of_le_length (by omega)] at this
        exact this
      obtain ⟨p0, tp0, g1, g2, g3, g4, g5, g6, g7⟩ := ih (ks' := ks0) htp (by rw [← e1]; exact hp) hp' hl hterms (by rw [← e2]; exact hfrom)
        hsim0 (by rw [← e1]; omega)
      have htot : getFrom input tp0.total = some (dyield [d'] ++ r) := by
        simp only [Traversal.total, InputRange.totalLen]
        rw [g4, g6, ← e2]
        exact getFrom_add hfrom
      have hbefore : ∀ m0 : TermMatch, (m0.child < par ∨ m0 = m) → Edge.Before ⟨m0, p0⟩ ⟨m, par⟩ := by
        intro m0 hm0
        simp only [Edge.Before, Edge.round]
        rcases hm0 with hm0 | rfl <;> omega
      rcases hsim ks0.length (by simp) with ⟨s, hsome⟩ | ⟨hsome, hyl⟩
      · simp only [List.getElem?_append_right (Nat.le_refl _), Nat.sub_self, List.getElem?_cons_zero, Option.some.injEq] at hsome
        subst hsome
        simp only [dyield, dnodeYield, List.append_nil] at htot
        simp only [List.map_cons, List.map_nil, eraseNode, rootTerm, List.singleton_append] at g5
        obtain ⟨k0, hk0⟩ := hi.k.scan p0 tp0 s rest r (hpopped g1) g2 g5 htot
        obtain ⟨tr0, f1, f2, f3, f4, f5, f6⟩ := leaf_entry hs hk0 g2 g7
        refine ⟨k0, tr0, ho.edge_lt hi hk0 ((hs.edges _ _).mpr ⟨t, hk, hsrc⟩) (hbefore _ (.inl (by simp only [TermMatch.child]; omega))), f1,
          by rw [f2, g3], by rw [f3, g4, e2], ?_, ?_, f6⟩
        · rw [g5] at f4; injection f4 with _ f4; exact f4.symm
        · rw [f5, g6]; simp [dyield, dnodeYield]
      · rw [List.getElem?_append_right (Nat.le_refl _), Nat.sub_self, List.getElem?_cons_zero] at hsome
        rw [List.take_left] at hyl
        cases d' with
        | leaf s =>
          simp only [dyield, dnodeYield, List.append_nil] at htot
          simp only [List.map_cons, List.map_nil, eraseNode, rootTerm, List.singleton_append] at g5
          obtain ⟨k0, hk0⟩ := hi.k.scan p0 tp0 s rest r (hpopped g1) g2 g5 htot
          obtain ⟨tr0, f1, f2, f3, f4, f5, f6⟩ := leaf_entry hs hk0 g2 g7
          refine ⟨k0, tr0, ho.edge_lt hi hk0 ((hs.edges _ _).mpr ⟨t, hk, hsrc⟩) (hbefore _ (.inl (by simp only [TermMatch.child]; omega))), f1,
            by rw [f2, g3], by rw [f3, g4, e2], ?_, ?_, f6⟩
          · rw [g5] at f4; injection f4 with _ f4; exact f4.symm
          · rw [f5, g6]; simp [dyield, dnodeYield]
        | node pid kids =>
          have hch : ∃ c tc pc n, (c < par ∨ TermMatch.nonterminal c = m) ∧ Popped st c ∧ st.tree.arena[c]? = some tc ∧ tc.prodId = pid ∧
              tc.unmatched = [] ∧ pg.productions[pid]? = some pc ∧ pc.lhs = .nonterminal n ∧ Den st.tree.arena c kids ∧
              tc.range.start = t.range.start + byteLen (dyield ks0) := by
            rcases (getElem?_snoc _ _ _ _).mp hsome.symm with hin | ⟨hlast, hd'⟩
            · obtain ⟨c, tc, pc, n, c1, c2, c3, c4, c5, c6, c7, c8⟩ := child_at hs hdp htp hin
              have := (List.getElem?_eq_some_iff.mp hin).1
              rw [List.take_append_of_le_length (by omega)] at hyl
              exact ⟨c, tc, pc, n, .inl c1, hpopped c1, c2, c3, c4, c5, c6, c7, by rw [c8, e2, hyl]⟩
            · obtain ⟨c, tc, pc, n, c1, c2, c3, c4, c5, c6, c7, c8⟩ := child_at hs hdk hk hsome.symm
              obtain ⟨c', rfl, hdc'⟩ := hdm pid kids hd'.symm
              have hcc := node_entry hs ((hs.edges _ _).mpr ⟨t, hk, hsrc⟩) htp (tc := st.tree.arena[c']'(by
                have := (hs.entries k t hk).link _ hsrc
                simp only [TermMatch.below] at this
                have := this.2.1
                have := (List.getElem?_eq_some_iff.mp hk).1
                omega)) (List.getElem?_eq_getElem _) hdp hdc'
              obtain ⟨tr', pc', n', q1, _, q2, _, _, q5, q6, q7, q8, q9⟩ := hcc
              rw [hk] at q1; injection q1 with q1; subst q1
              have hden := hdk.fun q9
              have := (snoc_inj hden).2
              rw [← hd'] at this
              injection this with this _
              refine ⟨c', _, pc', n', .inr rfl, (ho.popped c').mpr ?_, List.getElem?_eq_getElem _, this.symm, q5, by rw [this]; exact q6, q7, hdc', ?_⟩
              · simp only [Edge.round, TermMatch.child] at hpast; omega
              · rw [q8, e2]
                simp only [Traversal.total, InputRange.totalLen]
                rw [den_len hs htp hdp]
                rw [hlast, List.take_left] at hyl
                rw [hyl]
          obtain ⟨c, tc, pc, n, c1, c2, c3, c4, c5, c6, c7, c8, c9⟩ := hch
          simp only [List.map_cons, List.map_nil, eraseNode, rootTerm, List.singleton_append, lhsOf_eq c6, c7] at g5
          obtain ⟨k0, hk0⟩ := hi.k.compl p0 tp0 n rest c tc pc (hpopped g1) g2 g5 c2 c3 c5 (by rw [c4]; exact c6) c7 (by
            simp only [Traversal.total, InputRange.totalLen]
            rw [c9, g4, g6, e2])
          obtain ⟨tr0, _, _, f1, f2, f3, f4, f5, _, _, _, _, f6⟩ := node_entry hs hk0 g2 c3 g7 c8
          refine ⟨k0, tr0, ho.edge_lt hi hk0 ((hs.edges _ _).mpr ⟨t, hk, hsrc⟩) (hbefore _ c1), f1, by rw [f2, g3], by rw [f3, g4, e2], ?_, ?_,
            by rw [← c4]; exact f6⟩
          · rw [g5] at f4; injection f4 with _ f4; exact f4.symm
          · rw [f5, g6, den_len hs c3 c8]; simp [dyield, dnodeYield]
  induction hd with
  | @root k t hk hsrc =>
    intro tr p j p' ks' rest r htr hp hp' hl hterms _ _ hlen
    rw [hk] at htr; injection htr with htr; subst htr
    simp only [List.length_nil, Nat.not_lt_zero, false_or] at hlen
    obtain ⟨h0, hj⟩ := hlen
    rw [List.length_eq_zero_iff] at h0
    subst h0
    obtain ⟨k0, tr0, g1, g2, g3, g4, g5, g6, g7, _⟩ := hroot hk hsrc hp hp' hl
    exact ⟨k0, tr0, g7 hj, g1, g2, g3, by rw [g4, hterms]; simp, by rw [g5]; simp [dyield, byteLen], g6⟩
  | @leaf k t s par ks hk hsrc hdp ih =>
    intro tr p j p' ks' rest r htr hp hp' hl hterms hfrom hsim hlen
    rw [hk] at htr; injection htr with htr; subst htr
    exact step hk hsrc hdp (.leaf hk hsrc hdp) (by intro _ _ h; cases h) ih hp hp' hl hterms hfrom hsim hlen
  | @node k t c par ks tc kids hk hsrc hdp hc hdc ih1 ih2 =>
    intro tr p j p' ks' rest r htr hp hp' hl hterms hfrom hsim hlen
    rw [hk] at htr; injection htr with htr; subst htr
    exact step hk hsrc hdp (.node hk hsrc hdp hc hdc) (by intro _ _ h; injection h with _ h; subst h; exact ⟨c, rfl, hdc⟩) ih1 hp hp' hl hterms
      hfrom hsim hlen
end

/-- Annotations for simpler children. -/
def annotate (ks : List DNode) (kk' : List ParseTreeNode) : List DNode :=
  kk'.mapIdx fun i n => match n with
    | .terminal s => .leaf s
    | .nonterminal _ _ => ks[i]?.getD (.leaf [])

theorem annotate_ok (pg : ParseGrammar) {ks : List DNode} {kk' : List ParseTreeNode} (hs : Simpler kk' (erase pg ks)) :
    erase pg (annotate ks kk') = kk' ∧ DSimpler (annotate ks kk') ks := by
  have hlen : (annotate ks kk').length = kk'.length := by simp [annotate]
  have hone : ∀ i < kk'.length, (∃ s, kk'[i]? = some (.terminal s) ∧ (annotate ks kk')[i]? = some (.leaf s)) ∨
      ((annotate ks kk')[i]? = ks[i]? ∧ kk'[i]? = (erase pg ks)[i]? ∧ yield (kk'.take i) = yield ((erase pg ks).take i)) := by
    intro i hi
    rcases hs i hi with ⟨s, h⟩ | ⟨h, hy⟩
    · exact .inl ⟨s, h, by simp [annotate, h]⟩
    · cases hk : kk'[i]? with
      | none => rw [List.getElem?_eq_none_iff] at hk; omega
      | some n =>
        cases n with
        | terminal s => exact .inl ⟨s, rfl, by simp [annotate, hk]⟩
        | nonterminal l kids =>
          refine .inr ⟨?_, hk ▸ h, hy⟩
          rw [hk, erase_eq_map, List.getElem?_map] at h
          cases hd : ks[i]? with
          | none => rw [hd] at h; cases h
          | some d => simp [annotate, hk, hd]
  have herase : erase pg (annotate ks kk') = kk' := by
    rw [erase_eq_map]
    apply List.ext_getElem?
    intro i
    by_cases hi : i < kk'.length
    · rw [List.getElem?_map]
      rcases hone i hi with ⟨s, h1, h2⟩ | ⟨h1, h2, _⟩
      · rw [h1, h2]; rfl
      · rw [h1, h2, erase_eq_map, List.getElem?_map]
    · rw [List.getElem?_eq_none (by simp [hlen]; omega), List.getElem?_eq_none (by omega)]
  refine ⟨herase, fun i hi => ?_⟩
  rcases hone i (by omega) with ⟨s, _, h2⟩ | ⟨h1, _, hy⟩
  · exact .inl ⟨s, h2⟩
  · refine .inr ⟨h1, ?_⟩
    rw [← yield_erase pg, ← yield_erase pg, erase_eq_map, erase_eq_map, List.map_take, List.map_take, ← erase_eq_map, ← erase_eq_map, herase]
    exact hy

/-- The alternatives of a left-hand side in the table. -/
theorem listed_eq (g : Grammar) (l : Term) :
    listed g l = ((ParseGrammar.newUnchecked g).productions.filter fun p => p.lhs = l).map fun p => p.rhs := by
  have h := newUnchecked_productions g
  have : ((ParseGrammar.newUnchecked g).productions.filter fun p => p.lhs = l).map (fun p => p.rhs) =
      (((ParseGrammar.newUnchecked g).productions.map fun p => (p.lhs, p.rhs)).filter fun x => x.1 = l).map fun x => x.2 := by
    rw [List.filter_map, List.map_map]
    rfl
  rw [this, h]
  unfold listed Grammar.flatProds
  induction g.productions with
  | nil => rfl
  | cons p ps ih =>
    rw [List.flatMap_cons, List.filter_append, List.map_append, ← ih]
    by_cases hl : p.lhs = l
    · rw [List.filter_cons_of_pos (by simpa using hl), List.flatMap_cons]
      congr 1
      rw [List.filter_eq_self.mpr (by intro x hx; obtain ⟨e, _, rfl⟩ := List.mem_map.mp hx; simpa using hl)]
      simp
    · rw [List.filter_cons_of_neg (by simpa using hl)]
      have : ((p.rhs.map fun e => (p.lhs, e)).filter fun x => x.1 = l) = [] :=
        List.filter_eq_nil_iff.mpr (by intro x hx; obtain ⟨e, _, rfl⟩ := List.mem_map.mp hx; simpa using hl)
      rw [this]
      simp

theorem mem_listed {g : Grammar} {l : Term} {e : Expression} (h : e ∈ listed g l) :
    ∃ (j : Nat) (p : FlatProd), (ParseGrammar.newUnchecked g).productions[j]? = some p ∧ p.lhs = l ∧ p.rhs = e := by
  rw [listed_eq] at h
  obtain ⟨p, hp, rfl⟩ := List.mem_map.mp h
  obtain ⟨hp1, hp2⟩ := List.mem_filter.mp hp
  obtain ⟨j, hj⟩ := List.mem_iff_getElem?.mp hp1
  exact ⟨j, p, hj, by simpa using hp2, rfl⟩

/-- An alternative listed before all places of another one has a smaller id. -/
theorem listed_before {g : Grammar} {l : Term} {a b : List Expression} {e : Expression} (h : listed g l = a ++ e :: b) :
    ∃ (j : Nat) (p : FlatProd), (ParseGrammar.newUnchecked g).productions[j]? = some p ∧ p.lhs = l ∧ p.rhs = e ∧
      ∀ (i : Nat) (q : FlatProd), (ParseGrammar.newUnchecked g).productions[i]? = some q → q.lhs = l → q.rhs ∉ a → q.rhs ≠ e → j < i := by
  rw [listed_eq] at h
  obtain ⟨l1, l2', h1, h2, h3⟩ := List.map_eq_append_iff.mp h
  obtain ⟨p, l2, rfl, h4, h5⟩ := List.map_eq_cons_iff.mp h3
  have hok := PGOk.newUnchecked g
  have hsort := (prods_sorted hok).filter (fun p => p.lhs = l)
  have hid : ∀ {x : FlatProd}, x ∈ (ParseGrammar.newUnchecked g).productions → (ParseGrammar.newUnchecked g).productions[x.id]? = some x := by
    intro x hx
    obtain ⟨j, hj⟩ := List.mem_iff_getElem?.mp hx
    rw [hok.id_eq j x hj]; exact hj
  have hp : p ∈ (ParseGrammar.newUnchecked g).productions.filter (fun p => p.lhs = l) := by rw [h1]; simp
  obtain ⟨hp1, hp2⟩ := List.mem_filter.mp hp
  refine ⟨p.id, p, hid hp1, by simpa using hp2, h4, fun i q hq hql hqa hqe => ?_⟩
  have hqm : q ∈ (ParseGrammar.newUnchecked g).productions.filter (fun p => p.lhs = l) :=
    List.mem_filter.mpr ⟨List.mem_of_getElem? hq, by simpa using hql⟩
  rw [h1] at hqm hsort
  rw [← hok.id_eq i q hq]
  rcases List.mem_append.mp hqm with hq1 | hq1
  · exact absurd (by rw [← h2]; exact List.mem_map.mpr ⟨q, hq1, rfl⟩) hqa
  · rcases List.mem_cons.mp hq1 with rfl | hq1
    · exact absurd h4 hqe
    · exact (List.pairwise_cons.mp (List.pairwise_append.mp hsort).2.1).1 q hq1

theorem earlier_simpler {g : Grammar} {S : Term} {input : Str} {st : PState} {h : Nat}
    (hi : Inv (ParseGrammar.newUnchecked g) input S st) (ho : OInv st h) (hsib : Siblings (ParseGrammar.newUnchecked g) st.tree)
    {l kk kk'} (hy : yield kk' = yield kk) (hsim : Simpler kk' kk)
    (hc : (⟨kk'.map rootTerm⟩ ∈ listed g l ∧ kk'.length < kk.length) ∨
      (kk'.length = kk.length ∧ ∃ a b, listed g l = a ++ ⟨kk'.map rootTerm⟩ :: b ∧ ⟨kk.map rootTerm⟩ ∉ a ∧ kk.map rootTerm ≠ kk'.map rootTerm)) :
    Earlier (ParseGrammar.newUnchecked g) st l kk kk' := by
  intro c tc pc ks hk hu hpc hl hd he
  subst he
  obtain ⟨ha, hds⟩ := annotate_ok (ParseGrammar.newUnchecked g) hsim
  obtain ⟨ks1, done, r, p1, hd1, hp1, hdone, hvf, hfrom, _⟩ := hi.s.sem c tc hk
  rw [hd1.fun hd] at hvf hfrom
  rw [hpc] at hp1; injection hp1 with hp1; subst hp1
  rw [hu, List.append_nil] at hdone
  have hroots := hvf.mem_lift.1
  have hmap : kk'.map rootTerm = (annotate ks kk').map fun d => rootTerm (eraseNode (ParseGrammar.newUnchecked g) d) := by
    rw [← ha, erase_eq_map, List.map_map]
    rw [← erase_eq_map, ha]
    rfl
  have hlen : (annotate ks kk').length = kk'.length := by simp [annotate]
  have hlen' : (erase (ParseGrammar.newUnchecked g) ks).length = ks.length := by simp [erase_eq_map]
  have hyd : dyield (annotate ks kk') = dyield ks := by
    rw [← yield_erase (ParseGrammar.newUnchecked g), ha, hy, yield_erase]
  have main : ∀ {j p}, (ParseGrammar.newUnchecked g).productions[j]? = some p → p.lhs = l → p.rhs = ⟨kk'.map rootTerm⟩ →
      (kk'.length < (erase (ParseGrammar.newUnchecked g) ks).length ∨
        (kk'.length = (erase (ParseGrammar.newUnchecked g) ks).length ∧ j < tc.prodId)) →
      ∃ c0 tc0 pc0 ks0, c0 < c ∧ st.tree.arena[c0]? = some tc0 ∧ tc0.unmatched = [] ∧
        (ParseGrammar.newUnchecked g).productions[tc0.prodId]? = some pc0 ∧ pc0.lhs = l ∧
        tc0.range.start = tc.range.start ∧ tc0.range.len = tc.range.len ∧ Den st.tree.arena c0 ks0 ∧
        erase (ParseGrammar.newUnchecked g) ks0 = kk' := by
    intro j p hj hpl hpr hcond
    obtain ⟨c0, tc0, f1, f2, f3, f4, f5, f6, f7⟩ := simpler_entry (PGOk.newUnchecked g) hi ho hsib hd (rest := []) (ks' := annotate ks kk') hk hpc hj
      (hl.trans hpl.symm) (by rw [hpr, List.append_nil]; exact hmap) (by rw [hyd]; exact hfrom) hds (by rw [hlen, ← hlen']; exact hcond)
    exact ⟨c0, tc0, p, _, f1, f2, f5, by rw [f3]; exact hj, hpl, f4, by rw [f6, hyd, den_len hi.s hk hd], f7, ha⟩
  rcases hc with ⟨hm, hlt⟩ | ⟨hleq, a, b, hab, hna, hne⟩
  · obtain ⟨j, p, h1, h2, h3⟩ := mem_listed hm
    exact main h1 h2 h3 (.inl hlt)
  · obtain ⟨j, p, h1, h2, h3, h4⟩ := listed_before hab
    refine main h1 h2 h3 (.inr ⟨hleq, h4 tc.prodId pc hpc hl ?_ ?_⟩)
    · intro hmem
      apply hna
      rw [← hroots, ← hdone]; exact hmem
    · intro heq
      apply hne
      rw [← hroots, ← hdone, heq]

end Bnf
