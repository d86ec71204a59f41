import Verif.Proofs.Opened
import Verif.Proofs.Parts

/-! The order in which traversals are created and trees are returned. -/

set_option autoImplicit false

namespace Bnf
open Spec

/-- The matched traversal, `0` for terminals. -/
def TermMatch.child : TermMatch → Nat
  | .terminal _ => 0
  | .nonterminal c => c

/-- The round in which an edge is created: when the later one of its two ends is processed. -/
def Edge.round (e : Edge) : Nat := max e.parent e.term.child

/-- Order of creation. -/
def Edge.Before (e e' : Edge) : Prop :=
  e.round < e'.round ∨ (e.round = e'.round ∧ (e.parent < e'.parent ∨ (e.parent = e'.parent ∧ e.term.child < e'.term.child)))

theorem Edge.Before.asymm {e e' : Edge} (h : e.Before e') : ¬ e'.Before e := by
  unfold Edge.Before at *; omega

theorem Edge.Before.ne {e e' : Edge} (h : e.Before e') : e ≠ e' := by
  rintro rfl; exact h.asymm h

/-- Bookkeeping facts needed for the order. -/
structure Basic (t : TravTree) (q : TravQueue) (h : Nat) : Prop where
  ids : ∀ (k : Nat) tr, t.arena[k]? = some tr → tr.id = k
  proc : ∀ k, k ∈ q.processed ↔ k < t.arena.length
  roots : ∀ key k, t.roots.get key = some k → k < t.arena.length
  edges : ∀ e k, t.edges.get e = some k → k < t.arena.length
  hle : h ≤ t.arena.length
  queue : q.queue = List.range' h (t.arena.length - h)

/-- Entries were created in the order of their edges. -/
def Ordered (a : List Traversal) : Prop :=
  ∀ (k k' : Nat) tr tr' e e', a[k]? = some tr → a[k']? = some tr' → tr.src = some e → tr'.src = some e' → k < k' → e.Before e'

theorem Basic.push {t q h} (hb : Basic t q h) {x : Traversal} (hx : x.id = t.arena.length) {r e}
    (hr : ∀ key k, AMap.get r key = some k → k < t.arena.length + 1) (he : ∀ key k, AMap.get e key = some k → k < t.arena.length + 1) :
    Basic ⟨t.arena ++ [x], r, e⟩ (q.pushBack t.arena.length) h := by
  have hp : q.pushBack t.arena.length = ⟨t.arena.length :: q.processed, q.queue ++ [t.arena.length]⟩ := by
    unfold TravQueue.pushBack
    rw [if_neg]
    rw [hb.proc]; omega
  rw [hp]
  have := hb.hle
  refine ⟨?_, ?_, ?_, ?_, ?_, ?_⟩
  · intro k tr hk
    rcases (getElem?_snoc _ _ _ _).mp hk with hk | ⟨rfl, rfl⟩
    · exact hb.ids k tr hk
    · exact hx
  · intro k; simp [hb.proc]; omega
  · intro key k hk; simpa using hr key k hk
  · intro key k hk; simpa using he key k hk
  · simp; omega
  · simp only [List.length_append, List.length_singleton, hb.queue]
    rw [show t.arena.length + 1 - h = (t.arena.length - h) + 1 by omega, List.range'_1_concat]
    congr 2
    omega

theorem Basic.pushOld {t q h} (hb : Basic t q h) {k : Nat} (hk : k < t.arena.length) : q.pushBack k = q := by
  unfold TravQueue.pushBack
  rw [if_pos]
  rw [hb.proc]; exact hk

theorem predictAll_order {range : InputRange} {flag : Bool} {h : Nat} (ps : List FlatProd) {t q} (hb : Basic t q h)
    (ho : Ordered t.arena) : Basic (predictAll range flag ps t q).1 (predictAll range flag ps t q).2 h ∧
    Ordered (predictAll range flag ps t q).1.arena ∧
    (∀ (k : Nat) tr e, (predictAll range flag ps t q).1.arena[k]? = some tr → tr.src = some e → t.arena[k]? = some tr) := by
  induction ps generalizing t q with
  | nil => exact ⟨hb, ho, fun k tr e h _ => h⟩
  | cons p ps ih =>
    simp only [predictAll]
    unfold TravTree.predict
    simp only
    split
    · rename_i id hid
      simp only [hb.pushOld (hb.roots _ _ hid)]
      exact ih hb ho
    · rename_i hnone
      simp only
      obtain ⟨h1, h2, h3⟩ := ih (t := ⟨t.arena ++ [⟨t.arena.length, p.rhs.terms, range.after, p.id, flag, none⟩],
          t.roots.set (p.id, range.totalLen) t.arena.length, t.edges⟩) (q := q.pushBack t.arena.length)
        (hb.push rfl (by
          intro key k hk
          rw [AMap.get_set] at hk
          split at hk
          · injection hk with hk; omega
          · have := hb.roots key k hk; omega) (by
          intro key k hk
          have := hb.edges key k hk; omega)) (by
        intro k k' tr tr' e e' hk hk' hs hs' hlt
        rcases (getElem?_snoc _ _ _ _).mp hk with hk | ⟨rfl, rfl⟩
        · rcases (getElem?_snoc _ _ _ _).mp hk' with hk' | ⟨rfl, rfl⟩
          · exact ho k k' tr tr' e e' hk hk' hs hs' hlt
          · simp at hs'
        · simp at hs)
      refine ⟨h1, h2, fun k tr e hk hs => ?_⟩
      rcases (getElem?_snoc _ _ _ _).mp (h3 k tr e hk hs) with hk | ⟨rfl, rfl⟩
      · exact hk
      · simp at hs

theorem matchAll_order {h : Nat} (ms : List (Nat × TermMatch)) {t q t' q'} (hb : Basic t q h) (ho : Ordered t.arena)
    (hp : ms.Pairwise fun x y => Edge.Before ⟨x.2, x.1⟩ ⟨y.2, y.1⟩)
    (hn : ∀ (k : Nat) tr e, t.arena[k]? = some tr → tr.src = some e → ∀ x ∈ ms, e.Before ⟨x.2, x.1⟩)
    (hm : matchAll ms t q = some (t', q')) :
    Basic t' q' h ∧ Ordered t'.arena ∧
    (∀ (k : Nat) tr e, t'.arena[k]? = some tr → tr.src = some e → t.arena[k]? = some tr ∨ ∃ x ∈ ms, e = ⟨x.2, x.1⟩) := by
  induction ms generalizing t q with
  | nil =>
    simp only [matchAll, Option.some.injEq, Prod.mk.injEq] at hm
    obtain ⟨rfl, rfl⟩ := hm
    exact ⟨hb, ho, fun k tr e h _ => .inl h⟩
  | cons x xs ih =>
    obtain ⟨par, m⟩ := x
    obtain ⟨hp1, hp2⟩ := List.pairwise_cons.mp hp
    rw [matchAll] at hm
    cases hmt : t.matchTerm par m with
    | none => rw [hmt] at hm; cases hm
    | some r =>
      obtain ⟨id, t1⟩ := r
      rw [hmt] at hm
      simp only at hm
      unfold TravTree.matchTerm at hmt
      split at hmt
      · cases hmt
      · rename_i tp htp
        split at hmt
        · cases hmt
        · rename_i range _
          split at hmt
          · cases hmt
          · rename_i T unm _
            have hid : tp.id = par := hb.ids par tp htp
            simp only [hid] at hmt
            split at hmt
            · rename_i id' hid'
              simp only [Option.some.injEq, Prod.mk.injEq] at hmt
              obtain ⟨rfl, rfl⟩ := hmt
              rw [hb.pushOld (hb.edges _ _ hid')] at hm
              obtain ⟨h1, h2, h3⟩ := ih hb ho hp2 (fun k tr e hk hs y hy => hn k tr e hk hs y (by simp [hy])) hm
              refine ⟨h1, h2, fun k tr e hk hs => ?_⟩
              rcases h3 k tr e hk hs with h | ⟨y, hy, he⟩
              · exact .inl h
              · exact .inr ⟨y, by simp [hy], he⟩
            · rename_i hnone
              simp only [Option.some.injEq, Prod.mk.injEq] at hmt
              obtain ⟨rfl, rfl⟩ := hmt
              obtain ⟨h1, h2, h3⟩ := ih (hb.push rfl (by
                  intro key k hk
                  have := hb.roots key k hk; omega) (by
                  intro key k hk
                  rw [AMap.get_set] at hk
                  split at hk
                  · injection hk with hk; omega
                  · have := hb.edges key k hk; omega)) (by
                intro k k' tr tr' e e' hk hk' hs hs' hlt
                rcases (getElem?_snoc _ _ _ _).mp hk with hk | ⟨rfl, rfl⟩
                · rcases (getElem?_snoc _ _ _ _).mp hk' with hk' | ⟨rfl, rfl⟩
                  · exact ho k k' tr tr' e e' hk hk' hs hs' hlt
                  · simp only [Option.some.injEq] at hs'
                    subst hs'
                    exact hn k tr e hk hs (par, m) (by simp)
                · exfalso
                  have := (List.getElem?_eq_some_iff.mp hk').1
                  simp at this
                  omega) hp2 (by
                intro k tr e hk hs y hy
                rcases (getElem?_snoc _ _ _ _).mp hk with hk | ⟨rfl, rfl⟩
                · exact hn k tr e hk hs y (by simp [hy])
                · simp only [Option.some.injEq] at hs
                  subst hs
                  exact hp1 y hy) hm
              refine ⟨h1, h2, fun k tr e hk hs => ?_⟩
              rcases h3 k tr e hk hs with hk | ⟨y, hy, he⟩
              · rcases (getElem?_snoc _ _ _ _).mp hk with hk | ⟨rfl, rfl⟩
                · exact .inl hk
                · simp only [Option.some.injEq] at hs
                  exact .inr ⟨(par, m), by simp, hs.symm⟩
              · exact .inr ⟨y, by simp [hy], he⟩

/-- The order invariant: the next traversal to process is `h`, all edges stem from earlier rounds, in order. -/
structure OInv (st : PState) (h : Nat) : Prop where
  basic : Basic st.tree st.queue h
  ordered : Ordered st.tree.arena
  past : ∀ (k : Nat) tr e, st.tree.arena[k]? = some tr → tr.src = some e → e.round < h

theorem OInv.popped {st h} (ho : OInv st h) (k : Nat) : Popped st k ↔ k < h := by
  have := ho.basic.hle
  unfold Popped
  rw [ho.basic.queue, List.mem_range'_1]
  omega

theorem OInv.head {st h id rest} (ho : OInv st h) (hq : st.queue.queue = id :: rest) :
    id = h ∧ h < st.tree.arena.length ∧ rest = List.range' (h + 1) (st.tree.arena.length - (h + 1)) := by
  have := ho.basic.queue
  rw [hq] at this
  cases hn : st.tree.arena.length - h with
  | zero => rw [hn] at this; simp at this
  | succ n =>
    rw [hn, List.range'_succ] at this
    injection this with h1 h2
    exact ⟨h1, by omega, by rw [h2]; congr 1; omega⟩

theorem OInv.round {pg input S} {st : PState} {h : Nat} (hi : Inv pg input S st) (ho : OInv st h)
    {id rest st' b} (hq : st.queue.queue = id :: rest) (hr : earleyRound pg (st.pop rest) id = some (st', b)) :
    OInv st' (h + 1) := by
  obtain ⟨rfl, hlt, hrest⟩ := ho.head hq
  have hb : Basic (st.pop rest).tree (st.pop rest).queue (id + 1) :=
    ⟨ho.basic.ids, ho.basic.proc, ho.basic.roots, ho.basic.edges, hlt, hrest⟩
  have hor : Ordered (st.pop rest).tree.arena := ho.ordered
  obtain ⟨tr, htr⟩ : ∃ tr, st.tree.arena[id]? = some tr := ⟨_, List.getElem?_eq_getElem hlt⟩
  have hok := hi.s.entries id tr htr
  obtain ⟨p, hp⟩ := hok.prod
  have hget : (st.pop rest).tree.get id = some tr := htr
  have hpid : pg.prodById tr.prodId = some p := hp
  have hcins := hi.c.insert htr hok.id_eq hp
  have hbefore : ∀ {e x : Edge}, e.round < id → x.round = id → e.Before x := fun h1 h2 => .inl (by omega)
  unfold earleyRound at hr
  rw [hget] at hr
  simp only [Traversal.nextUnmatched] at hr
  cases hu : tr.unmatched with
  | nil =>
    simp only [hu, List.head?_nil, hpid] at hr
    have hinc : ∀ i ∈ ((st.pop rest).completions.insert tr p.lhs).getIncomplete p.lhs tr, i < id := by
      intro i hi'
      unfold CompletionMap.getIncomplete at hi'
      simp only [PState.pop] at hi'
      rw [hcins.inc] at hi'
      obtain ⟨h1 | rfl, t, n, rst, ht, htu, _⟩ := hi'
      · exact (ho.popped i).mp h1
      · rw [htr] at ht; injection ht with ht; subst ht; rw [hu] at htu; cases htu
    have hround : ∀ x ∈ ((((st.pop rest).completions.insert tr p.lhs).getIncomplete p.lhs tr).map
        fun i => (i, TermMatch.nonterminal id)), Edge.round ⟨x.2, x.1⟩ = id := by
      intro x hx
      obtain ⟨i, hi', rfl⟩ := List.mem_map.mp hx
      have := hinc i hi'
      simp only [Edge.round, TermMatch.child]
      omega
    split at hr
    · cases hr
    · rename_i tree queue hm
      simp only [Option.some.injEq, Prod.mk.injEq] at hr
      obtain ⟨rfl, _⟩ := hr
      obtain ⟨h1, h2, h3⟩ := matchAll_order _ hb hor (by
          rw [List.pairwise_map]
          refine (hcins.incS (p.lhs, tr.range.start)).imp_of_mem fun {a b} ha hb' hab => ?_
          have h1 := hinc a ha
          have h2 := hinc b hb'
          refine .inr ⟨?_, .inl hab⟩
          simp only [Edge.round, TermMatch.child]
          omega) (fun k tr' e hk hs x hx => hbefore (ho.past k tr' e hk hs) (hround x hx)) hm
      refine ⟨h1, h2, fun k tr' e hk hs => ?_⟩
      rcases h3 k tr' e hk hs with hk | ⟨x, hx, rfl⟩
      · have := ho.past k tr' e hk hs; omega
      · have := hround x hx; omega
  | cons T ts =>
    cases T with
    | terminal s =>
      simp only [hu, List.head?_cons] at hr
      split at hr
      · split at hr
        · cases hr
        · rename_i tree queue hm
          simp only [Option.some.injEq, Prod.mk.injEq] at hr
          obtain ⟨rfl, _⟩ := hr
          have hround : ∀ x ∈ [(id, TermMatch.terminal s)], Edge.round ⟨x.2, x.1⟩ = id := by
            intro x hx
            simp only [List.mem_singleton] at hx
            subst hx
            simp [Edge.round, TermMatch.child]
          obtain ⟨h1, h2, h3⟩ := matchAll_order _ hb hor (by simp)
            (fun k tr' e hk hs x hx => hbefore (ho.past k tr' e hk hs) (hround x hx)) hm
          refine ⟨h1, h2, fun k tr' e hk hs => ?_⟩
          rcases h3 k tr' e hk hs with hk | ⟨x, hx, rfl⟩
          · have := ho.past k tr' e hk hs; omega
          · have := hround x hx; omega
      · simp only [Option.some.injEq, Prod.mk.injEq] at hr
        obtain ⟨rfl, _⟩ := hr
        refine ⟨hb, hor, fun k tr' e hk hs => ?_⟩
        have := ho.past k tr' e hk hs; omega
    | nonterminal n =>
      simp only [hu, List.head?_cons, hpid] at hr
      split at hr
      · cases hr
      · rename_i prods _
        obtain ⟨g1, g2, g3⟩ := predictAll_order (range := tr.range) (flag := false) prods hb hor
        have hcom : ∀ c ∈ ((st.pop rest).completions.insert tr p.lhs).getComplete (.nonterminal n) tr.range, c < id := by
          intro c hc
          unfold CompletionMap.getComplete at hc
          simp only [PState.pop] at hc
          rw [hcins.com] at hc
          obtain ⟨h1 | rfl, t, pc, ht, htu, _⟩ := hc
          · exact (ho.popped c).mp h1
          · rw [htr] at ht; injection ht with ht; subst ht; rw [hu] at htu; cases htu
        have hround : ∀ x ∈ ((((st.pop rest).completions.insert tr p.lhs).getComplete (.nonterminal n) tr.range).map
            fun c => (id, TermMatch.nonterminal c)), Edge.round ⟨x.2, x.1⟩ = id := by
          intro x hx
          obtain ⟨i, hi', rfl⟩ := List.mem_map.mp hx
          have := hcom i hi'
          simp only [Edge.round, TermMatch.child]
          omega
        split at hr
        · cases hr
        · rename_i tree queue hm
          simp only [Option.some.injEq, Prod.mk.injEq] at hr
          obtain ⟨rfl, _⟩ := hr
          obtain ⟨h1, h2, h3⟩ := matchAll_order _ g1 g2 (by
              rw [List.pairwise_map]
              refine (hcins.comS (.nonterminal n, tr.range.totalLen)).imp_of_mem fun {a b} ha hb' hab => ?_
              have h1 := hcom a ha
              have h2 := hcom b hb'
              refine .inr ⟨?_, .inr ⟨rfl, hab⟩⟩
              simp only [Edge.round, TermMatch.child]
              omega) (fun k tr' e hk hs x hx => hbefore (ho.past k tr' e (g3 k tr' e hk hs) hs) (hround x hx)) hm
          refine ⟨h1, h2, fun k tr' e hk hs => ?_⟩
          rcases h3 k tr' e hk hs with hk | ⟨x, hx, rfl⟩
          · have := ho.past k tr' e (g3 k tr' e hk hs) hs; omega
          · have := hround x hx; omega

/-- Traversals are processed, and full ones returned, in the order of their creation. -/
theorem Rounds.order {pg input S} (hpg : PGOk pg) {st ems st'} (hr : Rounds pg st ems st') :
    ∀ {h}, Inv pg input S st → OInv st h → (∃ h', h ≤ h' ∧ OInv st' h') ∧ ems.Pairwise (· < ·) ∧ ∀ id ∈ ems, h ≤ id := by
  induction hr with
  | refl => intro h _ ho; exact ⟨⟨h, Nat.le_refl _, ho⟩, .nil, by simp⟩
  | quiet hq hr _ ih =>
    intro h hi ho
    obtain ⟨⟨h', h1, h2⟩, h3, h4⟩ := ih (Later.of_round hpg hi hq hr).1 (ho.round hi hq hr)
    exact ⟨⟨h', by omega, h2⟩, h3, fun id hid => by have := h4 id hid; omega⟩
  | emit hq hr _ ih =>
    intro h hi ho
    obtain ⟨⟨h', h1, h2⟩, h3, h4⟩ := ih (Later.of_round hpg hi hq hr).1 (ho.round hi hq hr)
    have := (ho.head hq).1
    refine ⟨⟨h', by omega, h2⟩, List.pairwise_cons.mpr ⟨fun a ha => by have := h4 a ha; omega, h3⟩, fun id hid => ?_⟩
    rcases List.mem_cons.mp hid with rfl | hid
    · omega
    · have := h4 id hid; omega

/-! ## Earlier parts make earlier wholes -/

section
variable {pg : ParseGrammar} {input : Str} {S : Term} {st : PState} {h : Nat}

theorem OInv.edge_lt (hi : Inv pg input S st) (ho : OInv st h) {e e' : Edge} {k k' : Nat} (hk : st.tree.edges.get e = some k)
    (hk' : st.tree.edges.get e' = some k') (hb : e.Before e') : k < k' := by
  obtain ⟨tr, htr, hs⟩ := (hi.s.edges _ _).mp hk
  obtain ⟨tr', htr', hs'⟩ := (hi.s.edges _ _).mp hk'
  rcases Nat.lt_trichotomy k k' with hlt | heq | hgt
  · exact hlt
  · subst heq
    rw [htr] at htr'; injection htr' with htr'; subst htr'
    rw [hs] at hs'; injection hs' with hs'
    exact absurd hs' hb.ne
  · exact absurd (ho.ordered k' k tr' tr e' e htr' htr hs' hs hgt) hb.asymm

/-- An earlier traversal waiting for the same terms at the same place is extended earlier. -/
theorem earlier_parent (hi : Inv pg input S st) (ho : OInv st h) {m : TermMatch} {p p0 k : Nat} {tp tp0 : Traversal}
    (hk : st.tree.edges.get ⟨m, p⟩ = some k) (hp : st.tree.arena[p]? = some tp) (hp0 : st.tree.arena[p0]? = some tp0)
    (hlt : p0 < p) (hu : tp0.unmatched = tp.unmatched) (ht : tp0.total = tp.total) :
    ∃ k0 < k, st.tree.edges.get ⟨m, p0⟩ = some k0 := by
  obtain ⟨tr, htr, hs⟩ := (hi.s.edges _ _).mp hk
  have hpast := ho.past k tr _ htr hs
  obtain ⟨_, _, tp', htp', _, _, _, hl⟩ := (hi.s.entries k tr htr).link _ hs
  simp only at htp' hl
  rw [hp] at htp'; injection htp' with htp'; subst htp'
  have hbefore : Edge.Before ⟨m, p0⟩ ⟨m, p⟩ := by
    simp only [Edge.Before, Edge.round]
    omega
  have hpop : Popped st p0 := (ho.popped p0).mpr (by simp only [Edge.round] at hpast; omega)
  have : ∃ k0, st.tree.edges.get ⟨m, p0⟩ = some k0 := by
    generalize tr.range.len = L at hl
    generalize tr.unmatched = U at hl
    cases hl with
    | terminal h1 h2 => exact hi.k.scan p0 tp0 _ _ _ hpop hp0 (hu.trans h1) (by rw [ht]; exact h2)
    | @nonterminal c tc pc n rest h1 h2 h3 h4 h5 h6 =>
      have hc : Popped st c := (ho.popped c).mpr (by simp only [Edge.round, TermMatch.child] at hpast; omega)
      exact hi.k.compl p0 tp0 n _ c tc pc hpop hp0 (hu.trans h5) hc h1 h2 h3 h4 (by rw [ht]; exact h6)
  obtain ⟨k0, hk0⟩ := this
  exact ⟨k0, ho.edge_lt hi hk0 hk hbefore, hk0⟩

/-- An earlier completed traversal of the same nonterminal at the same place extends earlier. -/
theorem earlier_child (hi : Inv pg input S st) (ho : OInv st h) {p c c0 k : Nat} {tc tc0 : Traversal} {n : Str}
    {pc0 : FlatProd} (hk : st.tree.edges.get ⟨.nonterminal c, p⟩ = some k) (hc : st.tree.arena[c]? = some tc)
    (hc0 : st.tree.arena[c0]? = some tc0) (hlt : c0 < c) (hu : tc0.unmatched = []) (hpc0 : pg.productions[tc0.prodId]? = some pc0)
    (hl0 : pc0.lhs = .nonterminal n) (hn : ∀ pc, pg.productions[tc.prodId]? = some pc → pc.lhs = .nonterminal n)
    (ht : tc0.range.start = tc.range.start) :
    ∃ k0 < k, st.tree.edges.get ⟨.nonterminal c0, p⟩ = some k0 := by
  obtain ⟨tr, htr, hs⟩ := (hi.s.edges _ _).mp hk
  have hpast := ho.past k tr _ htr hs
  obtain ⟨_, _, tp, htp, _, _, _, hl⟩ := (hi.s.entries k tr htr).link _ hs
  simp only at htp hl
  have hbefore : Edge.Before ⟨.nonterminal c0, p⟩ ⟨.nonterminal c, p⟩ := by
    by_cases hm : max p c0 < max p c
    · exact .inl hm
    · exact .inr ⟨by simp only [Edge.round, TermMatch.child]; omega, .inr ⟨rfl, hlt⟩⟩
  simp only [Edge.round, TermMatch.child] at hpast
  have : ∃ k0, st.tree.edges.get ⟨.nonterminal c0, p⟩ = some k0 := by
    generalize tr.range.len = L at hl
    generalize tr.unmatched = U at hl
    cases hl with
    | @nonterminal _ tc' pc n' rest h1 h2 h3 h4 h5 h6 =>
      rw [hc] at h1; injection h1 with h1; subst h1
      have := hn pc h3
      rw [h4] at this
      injection this with this
      subst this
      exact hi.k.compl p tp n' _ c0 tc0 pc0 ((ho.popped p).mpr (by omega)) htp h5 ((ho.popped c0).mpr (by omega)) hc0 hu hpc0 hl0
        (by rw [ht]; exact h6)
  obtain ⟨k0, hk0⟩ := this
  exact ⟨k0, ho.edge_lt hi hk0 hk hbefore, hk0⟩

/-! ## Shorter trees come first -/

theorem nodeIn_append {a : ParseTreeNode} {xs ys : List ParseTreeNode} (h : NodeIn a (xs ++ ys)) : NodeIn a xs ∨ NodeIn a ys := by
  induction xs with
  | nil => exact .inr h
  | cons x xs ih =>
    generalize hz : (x :: xs) ++ ys = zs at h
    cases h with
    | here => simp at hz; rw [hz.1]; exact .inl .here
    | there h =>
      simp at hz
      rw [← hz.2] at h
      rcases ih h with h | h
      · exact .inl (.there h)
      · exact .inr h
    | inside h => simp at hz; rw [hz.1]; exact .inl (.inside h)

theorem replaced_append {a b : ParseTreeNode} {xs ys zs : List ParseTreeNode} (h : Replaced a b (xs ++ ys) zs) :
    (∃ xs', Replaced a b xs xs' ∧ zs = xs' ++ ys) ∨ (∃ ys', Replaced a b ys ys' ∧ zs = xs ++ ys') := by
  induction xs generalizing zs with
  | nil => exact .inr ⟨zs, h, rfl⟩
  | cons x xs ih =>
    generalize hz : (x :: xs) ++ ys = ws at h
    cases h with
    | here => simp at hz; rw [hz.1, ← hz.2]; exact .inl ⟨_, .here, rfl⟩
    | there h =>
      simp at hz
      rw [← hz.2] at h
      rcases ih h with ⟨xs', h1, rfl⟩ | ⟨ys', h1, rfl⟩
      · rw [hz.1]; exact .inl ⟨_, .there h1, rfl⟩
      · rw [hz.1]; exact .inr ⟨ys', h1, rfl⟩
    | inside h => simp at hz; rw [hz.1, ← hz.2]; exact .inl ⟨_, .inside h, rfl⟩

theorem erase_snoc (pg : ParseGrammar) (ks : List DNode) (d : DNode) : erase pg (ks ++ [d]) = erase pg ks ++ [eraseNode pg d] := by
  induction ks with
  | nil => simp [erase]
  | cons k ks ih => simp [erase, ih]

theorem den_len (hs : SInv pg input S st.tree st.queue) {k : Nat} {tr : Traversal} {ks} (hk : st.tree.arena[k]? = some tr)
    (hd : Den st.tree.arena k ks) : tr.range.len = byteLen (dyield ks) := by
  obtain ⟨ks', _, _, _, hd', _, _, _, _, hl⟩ := hs.sem k tr hk
  rw [hd.fun hd']; exact hl

/-- The entry of an edge to a completed traversal. -/
theorem node_entry (hs : SInv pg input S st.tree st.queue) {c p k : Nat} {tp tc : Traversal} {ks kids}
    (hk : st.tree.edges.get ⟨.nonterminal c, p⟩ = some k) (hp : st.tree.arena[p]? = some tp) (hc : st.tree.arena[c]? = some tc)
    (hd : Den st.tree.arena p ks) (hdc : Den st.tree.arena c kids) :
    ∃ tr pc n, st.tree.arena[k]? = some tr ∧ tr.prodId = tp.prodId ∧ tr.range.start = tp.range.start ∧
      tp.unmatched = .nonterminal n :: tr.unmatched ∧ tr.range.len = tp.range.len + tc.range.len ∧ tc.unmatched = [] ∧
      pg.productions[tc.prodId]? = some pc ∧ pc.lhs = .nonterminal n ∧ tc.range.start = tp.total ∧
      Den st.tree.arena k (ks ++ [.node tc.prodId kids]) := by
  obtain ⟨tr, htr, hsrc⟩ := (hs.edges _ _).mp hk
  obtain ⟨_, _, tp', htp', e1, e2, _, hl⟩ := (hs.entries k tr htr).link _ hsrc
  simp only at htp' hl
  rw [hp] at htp'; injection htp' with htp'; subst htp'
  have hden := Den.node htr hsrc hd hc hdc
  have : ∃ pc n, tp.unmatched = .nonterminal n :: tr.unmatched ∧ tr.range.len = tp.range.len + tc.range.len ∧ tc.unmatched = [] ∧
      pg.productions[tc.prodId]? = some pc ∧ pc.lhs = .nonterminal n ∧ tc.range.start = tp.total := by
    generalize tr.range.len = L at hl
    generalize tr.unmatched = U at hl
    cases hl with
    | nonterminal h1 h2 h3 h4 h5 h6 =>
      rw [hc] at h1; injection h1 with h1; subst h1
      exact ⟨_, _, h5, rfl, h2, h3, h4, h6⟩
  obtain ⟨pc, n, h1, h2, h3, h4, h5, h6⟩ := this
  exact ⟨tr, pc, n, htr, e1, e2, h1, h2, h3, h4, h5, h6, hden⟩

/-- The entry of an edge for a terminal. -/
theorem leaf_entry (hs : SInv pg input S st.tree st.queue) {s : Str} {p k : Nat} {tp : Traversal} {ks}
    (hk : st.tree.edges.get ⟨.terminal s, p⟩ = some k) (hp : st.tree.arena[p]? = some tp) (hd : Den st.tree.arena p ks) :
    ∃ tr, st.tree.arena[k]? = some tr ∧ tr.prodId = tp.prodId ∧ tr.range.start = tp.range.start ∧
      tp.unmatched = .terminal s :: tr.unmatched ∧ tr.range.len = tp.range.len + byteLen s ∧
      Den st.tree.arena k (ks ++ [.leaf s]) := by
  obtain ⟨tr, htr, hsrc⟩ := (hs.edges _ _).mp hk
  obtain ⟨_, _, tp', htp', e1, e2, _, hl⟩ := (hs.entries k tr htr).link _ hsrc
  simp only at htp' hl
  rw [hp] at htp'; injection htp' with htp'; subst htp'
  have hden := Den.leaf htr hsrc hd
  have : tp.unmatched = .terminal s :: tr.unmatched ∧ tr.range.len = tp.range.len + byteLen s := by
    generalize tr.range.len = L at hl
    generalize tr.unmatched = U at hl
    cases hl with
    | terminal h1 h2 => exact ⟨h1, rfl⟩
  exact ⟨tr, htr, e1, e2, this.1, this.2, hden⟩

/-- The inner nodes of a traversal were completed before it, within its range. -/
theorem inner_entry (hs : SInv pg input S st.tree st.queue) {k : Nat} {ks} (hd : Den st.tree.arena k ks) {l kk} :
    ∀ {tr : Traversal}, st.tree.arena[k]? = some tr → NodeIn (.nonterminal l kk) (erase pg ks) →
    ∃ d td pd n ksd, d < k ∧ st.tree.arena[d]? = some td ∧ td.unmatched = [] ∧ pg.productions[td.prodId]? = some pd ∧ pd.lhs = l ∧
      l = .nonterminal n ∧ Den st.tree.arena d ksd ∧ erase pg ksd = kk ∧ tr.range.start ≤ td.range.start ∧
      td.range.start + td.range.len ≤ tr.range.start + tr.range.len := by
  induction hd with
  | root _ _ => intro tr _ hn; simp [erase] at hn; cases hn
  | @leaf k t s par ks hk hsrc hdp ih =>
    intro tr htr hn
    rw [hk] at htr; injection htr with htr; subst htr
    rw [erase_snoc] at hn
    obtain ⟨hlt, _, tp, htp, _⟩ := (hs.entries k t hk).link _ hsrc
    simp only at hlt htp
    obtain ⟨tr', htr', _, e2, _, e4, _⟩ := leaf_entry hs ((hs.edges _ _).mpr ⟨t, hk, hsrc⟩) htp hdp
    rw [hk] at htr'; injection htr' with htr'; subst htr'
    rcases nodeIn_append hn with hn | hn
    · obtain ⟨d, td, pd, n, ksd, h1, h2, h3, h4, h5, h6, h7, h8, h9, h10⟩ := ih htp hn
      exact ⟨d, td, pd, n, ksd, by omega, h2, h3, h4, h5, h6, h7, h8, by omega, by omega⟩
    · simp only [eraseNode] at hn
      cases hn with
      | there h => cases h
  | @node k t c par ks tc kids hk hsrc hdp hc hdc ih1 ih2 =>
    intro tr htr hn
    rw [hk] at htr; injection htr with htr; subst htr
    rw [erase_snoc] at hn
    obtain ⟨hlt, hbel, tp, htp, _⟩ := (hs.entries k t hk).link _ hsrc
    simp only [TermMatch.below] at hlt htp hbel
    obtain ⟨tr', pc, n, htr', _, e2, _, e4, e5, e6, e7, e8, _⟩ := node_entry hs ((hs.edges _ _).mpr ⟨t, hk, hsrc⟩) htp hc hdp hdc
    rw [hk] at htr'; injection htr' with htr'; subst htr'
    simp only [Traversal.total, InputRange.totalLen] at e8
    rcases nodeIn_append hn with hn | hn
    · obtain ⟨d, td, pd, n, ksd, h1, h2, h3, h4, h5, h6, h7, h8, h9, h10⟩ := ih1 htp hn
      exact ⟨d, td, pd, n, ksd, by omega, h2, h3, h4, h5, h6, h7, h8, by omega, by omega⟩
    · simp only [eraseNode] at hn
      generalize hx : lhsOf pg tc.prodId = x at hn
      generalize hy : erase pg kids = y at hn
      cases hn with
      | here =>
        rw [lhsOf_eq e6] at hx
        exact ⟨c, tc, pc, n, kids, hbel, hc, e5, e6, hx, by rw [← hx]; exact e7, hdc, hy, by omega, by omega⟩
      | there h => cases h
      | inside h =>
        rw [← hy] at h
        obtain ⟨d, td, pd, n, ksd, h1, h2, h3, h4, h5, h6, h7, h8, h9, h10⟩ := ih2 hc h
        exact ⟨d, td, pd, n, ksd, by omega, h2, h3, h4, h5, h6, h7, h8, by omega, by omega⟩

/-- Wherever a completed traversal has the label `l` and the children `kk`, there is an earlier one with the same label and range and
with the children `kk'`. -/
def Earlier (pg : ParseGrammar) (st : PState) (l : Term) (kk kk' : List ParseTreeNode) : Prop :=
  ∀ (c : Nat) tc pc ks, st.tree.arena[c]? = some tc → tc.unmatched = [] → pg.productions[tc.prodId]? = some pc → pc.lhs = l →
    Den st.tree.arena c ks → erase pg ks = kk →
    ∃ c0 tc0 pc0 ks0, c0 < c ∧ st.tree.arena[c0]? = some tc0 ∧ tc0.unmatched = [] ∧ pg.productions[tc0.prodId]? = some pc0 ∧ pc0.lhs = l ∧
      tc0.range.start = tc.range.start ∧ tc0.range.len = tc.range.len ∧ Den st.tree.arena c0 ks0 ∧ erase pg ks0 = kk'

theorem earlier_inner (hi : Inv pg input S st) {l kk kk'} (hin : NodeIn (.nonterminal l kk') kk) (hy : yield kk' = yield kk) :
    Earlier pg st l kk kk' := by
  intro c tc pc ks hc hu hpc hl hd he
  rw [← he] at hin
  obtain ⟨d, td, pd, n, ksd, a1, a2, a3, a4, a5, a6, a7, a8, a9, a10⟩ := inner_entry hi.s hd hc hin
  have l1 := den_len hi.s a2 a7
  have l2 := den_len hi.s hc hd
  have hlen : td.range.len = tc.range.len := by
    rw [l1, l2, ← yield_erase pg, ← yield_erase pg, a8, he, hy]
  exact ⟨d, td, pd, ksd, a1, a2, a3, a4, a5, by omega, hlen, a7, a8⟩

/-- Then also every traversal that contains such a node has an earlier one in which it is replaced. -/
theorem replace_entry (hi : Inv pg input S st) (ho : OInv st h) {l kk kk'} (hE : Earlier pg st l kk kk') {k : Nat} {ks} (hd : Den st.tree.arena k ks) :
    ∀ {tr : Traversal} {ns'}, st.tree.arena[k]? = some tr → Replaced (.nonterminal l kk) (.nonterminal l kk') (erase pg ks) ns' →
    ∃ k0 tr0 ks0, k0 < k ∧ st.tree.arena[k0]? = some tr0 ∧ tr0.prodId = tr.prodId ∧ tr0.range.start = tr.range.start ∧
      tr0.unmatched = tr.unmatched ∧ tr0.range.len = tr.range.len ∧ Den st.tree.arena k0 ks0 ∧ erase pg ks0 = ns' := by
  have hs := hi.s
  induction hd with
  | root _ _ => intro tr ns' _ hn; simp [erase] at hn; cases hn
  | @leaf k t s par ks hk hsrc hdp ih =>
    intro tr ns' htr hn
    rw [hk] at htr; injection htr with htr; subst htr
    rw [erase_snoc] at hn
    obtain ⟨hlt, _, tp, htp, _⟩ := (hs.entries k t hk).link _ hsrc
    simp only at hlt htp
    have hedge := (hs.edges _ _).mpr ⟨t, hk, hsrc⟩
    obtain ⟨tr', htr', e1, e2, e3, e4, _⟩ := leaf_entry hs hedge htp hdp
    rw [hk] at htr'; injection htr' with htr'; subst htr'
    rcases replaced_append hn with ⟨xs', hx, rfl⟩ | ⟨ys', hx, rfl⟩
    · obtain ⟨p0, tp0, ks0, h1, h2, h3, h4, h5, h6, h7, h8⟩ := ih htp hx
      obtain ⟨k0, hk0, he0⟩ := earlier_parent hi ho hedge htp h2 h1 h5 (by simp only [Traversal.total, InputRange.totalLen]; omega)
      obtain ⟨tr0, htr0, f1, f2, f3, f4, f5⟩ := leaf_entry hs he0 h2 h7
      refine ⟨k0, tr0, _, hk0, htr0, by rw [f1, e1, h3], by rw [f2, e2, h4], ?_, by rw [f4, e4, h6], f5, by rw [erase_snoc, h8]⟩
      rw [h5, e3] at f3; injection f3 with _ f3; exact f3.symm
    · simp only [eraseNode] at hx
      cases hx with
      | there h => cases h
  | @node k t c par ks tc kids hk hsrc hdp hc hdc ih1 ih2 =>
    intro tr ns' htr hn
    rw [hk] at htr; injection htr with htr; subst htr
    rw [erase_snoc] at hn
    obtain ⟨hlt, hbel, tp, htp, _⟩ := (hs.entries k t hk).link _ hsrc
    simp only [TermMatch.below] at hlt htp hbel
    have hedge := (hs.edges _ _).mpr ⟨t, hk, hsrc⟩
    obtain ⟨tr', pc, n, htr', e1, e2, e3, e4, e5, e6, e7, e8, _⟩ := node_entry hs hedge htp hc hdp hdc
    rw [hk] at htr'; injection htr' with htr'; subst htr'
    rcases replaced_append hn with ⟨xs', hx, rfl⟩ | ⟨ys', hx, rfl⟩
    · obtain ⟨p0, tp0, ks0, h1, h2, h3, h4, h5, h6, h7, h8⟩ := ih1 htp hx
      obtain ⟨k0, hk0, he0⟩ := earlier_parent hi ho hedge htp h2 h1 h5 (by simp only [Traversal.total, InputRange.totalLen]; omega)
      obtain ⟨tr0, _, _, htr0, f1, f2, f3, f4, _, _, _, _, f5⟩ := node_entry hs he0 h2 hc h7 hdc
      refine ⟨k0, tr0, _, hk0, htr0, by rw [f1, e1, h3], by rw [f2, e2, h4], ?_, by rw [f4, e4, h6], f5, by rw [erase_snoc, h8]⟩
      rw [h5, e3] at f3; injection f3 with _ f3; exact f3.symm
    · -- the last node changes: use the earlier completed traversal `c0`
      have key : ∀ {c0 tc0 pc0 ks0}, c0 < c → st.tree.arena[c0]? = some tc0 → tc0.unmatched = [] →
          pg.productions[tc0.prodId]? = some pc0 → pc0.lhs = .nonterminal n → tc0.range.start = tc.range.start →
          tc0.range.len = tc.range.len → Den st.tree.arena c0 ks0 →
          ys' = [.nonterminal (.nonterminal n) (erase pg ks0)] →
          ∃ k0 tr0 ks1, k0 < k ∧ st.tree.arena[k0]? = some tr0 ∧ tr0.prodId = t.prodId ∧ tr0.range.start = t.range.start ∧
            tr0.unmatched = t.unmatched ∧ tr0.range.len = t.range.len ∧ Den st.tree.arena k0 ks1 ∧ erase pg ks1 = erase pg ks ++ ys' := by
        intro c0 tc0 pc0 ks0 h1 h2 h3 h4 h5 h6 h7 h8 h9
        obtain ⟨k0, hk0, he0⟩ := earlier_child hi ho hedge hc h2 h1 h3 h4 h5 (by
          intro pc' hpc'; rw [e6] at hpc'; injection hpc' with hpc'; rw [← hpc']; exact e7) h6
        obtain ⟨tr0, _, _, htr0, f1, f2, f3, f4, _, _, _, _, f5⟩ := node_entry hs he0 htp h2 hdp h8
        refine ⟨k0, tr0, _, hk0, htr0, by rw [f1, e1], by rw [f2, e2], ?_, by rw [f4, e4, h7], f5, ?_⟩
        · rw [e3] at f3; injection f3 with _ f3; exact f3.symm
        · rw [erase_snoc, h9, eraseNode, lhsOf_eq h4, h5]
      simp only [eraseNode] at hx
      generalize hx1 : lhsOf pg tc.prodId = x at hx
      generalize hy1 : erase pg kids = y at hx
      rw [lhsOf_eq e6, e7] at hx1
      cases hx with
      | here =>
        obtain ⟨c0, tc0, pc0, ks0, h1, h2, h3, h4, h5, h6, h7, h8, h9⟩ := hE c tc pc kids hc e5 e6 (by rw [e7, hx1]) hdc hy1
        refine key h1 h2 h3 h4 (by rw [h5, hx1]) h6 h7 h8 ?_
        rw [h9, hx1]
      | there h => cases h
      | @inside _ _ kids' _ h =>
        rw [← hy1] at h
        obtain ⟨c0, tc0, ks0, h1, h2, h3, h4, h5, h6, h7, h8⟩ := ih2 hc h
        refine key h1 h2 (by rw [h5, e5]) (by rw [h3]; exact e6) e7 h4 h6 h7 ?_
        rw [h8, hx1]
end

/-! ## Trees -/

theorem new_order {p : GrammarParser} {input : Str} {s : Option Term} {it} (h : ParseTreeIter.new p input s = some it) :
    OInv it.st 0 := by
  unfold ParseTreeIter.new at h
  split at h
  · cases h
  · rename_i prods _
    simp only [Option.some.injEq] at h
    subst h
    obtain ⟨h1, h2, h3⟩ := predictAll_order (range := InputRange.new input) (flag := true) (h := 0) prods
      (t := ⟨[], [], []⟩) (q := ⟨[], []⟩) (by constructor <;> simp [AMap.get]) (by intro k; simp)
    exact ⟨h1, h2, fun k tr e hk hs => by have := h3 k tr e hk hs; simp at this⟩

theorem Spec.Opened.order {g S input it} (h : Opened g S input it) : OInv it.st 0 := by
  cases h with
  | parserStarting _ hi => exact new_order hi
  | parser _ _ hi => exact new_order hi
  | deprecatedStarting hi =>
    unfold Grammar.parseInputStartingWithDeprecated at hi
    split at hi
    · cases hi
    · exact new_order hi
  | deprecated _ hi =>
    unfold Grammar.parseInputDeprecated at hi
    split at hi
    · cases hi
    · exact new_order hi

theorem forall₂_split {α β : Type} {R : α → β → Prop} {l : List α} {xs : List β} {y : β} {ys : List β}
    (h : List.Forall₂ R l (xs ++ y :: ys)) : ∃ l1 a l2, l = l1 ++ a :: l2 ∧ List.Forall₂ R l1 xs ∧ R a y := by
  induction xs generalizing l with
  | nil =>
    cases h with
    | cons h1 _ => exact ⟨[], _, _, rfl, .nil, h1⟩
  | cons x xs ih =>
    cases h with
    | cons h1 h2 =>
      obtain ⟨l1, a, l2, rfl, h3, h4⟩ := ih h2
      exact ⟨_ :: l1, a, l2, rfl, .cons h1 h3, h4⟩

/-- A full entry whose tree has such a node has an earlier full entry with the replaced tree. -/
theorem replace_full {g : Grammar} {S : Term} {input : Str} {st : PState} {h : Nat}
    (hi : Inv (ParseGrammar.newUnchecked g) input S st) (ho : OInv st h) {k : Nat} {t t' : ParseTree}
    (hf : Full (ParseGrammar.newUnchecked g) input S st k) (ht : TreeOf g st k t) {l kk kk'}
    (hE : Earlier (ParseGrammar.newUnchecked g) st l kk kk')
    (hr : Replaced (.nonterminal l kk) (.nonterminal l kk') [.nonterminal t.lhs t.rhs] [.nonterminal t'.lhs t'.rhs]) :
    ∃ k0 < k, Full (ParseGrammar.newUnchecked g) input S st k0 ∧ TreeOf g st k0 t' := by
  obtain ⟨tr, p, h1, h2, h3, h4, h5, h6⟩ := hf
  obtain ⟨tr', ks, h1', hd, rfl⟩ := ht
  rw [h1] at h1'; injection h1' with h1'; subst h1'
  simp only [lhsOf_eq h3] at hr
  obtain ⟨tl, tk⟩ := t'
  simp only at hr
  generalize hx : erase (ParseGrammar.newUnchecked g) ks = x at hr
  cases hr with
  | here =>
    obtain ⟨c0, tc0, pc0, ks0, a1, a2, a3, a4, a5, a6, a7, a8, a9⟩ := hE k tr p ks h1 h2 h3 rfl hd hx
    exact ⟨c0, a1, ⟨tc0, pc0, a2, a3, a4, by rw [a5, h4], by omega, by omega⟩, tc0, ks0, a2, a8, by rw [lhsOf_eq a4, a5, a9]⟩
  | there h => cases h
  | inside h =>
    rw [← hx] at h
    obtain ⟨k0, tr0, ks0, a1, a2, a3, a4, a5, a6, a7, a8⟩ := replace_entry hi ho hE hd h1 h
    exact ⟨k0, a1, ⟨tr0, p, a2, by rw [a5, h2], by rw [a3]; exact h3, h4, by omega, by omega⟩, tr0, ks0, a2, a7,
      by rw [a3, lhsOf_eq h3, a8]⟩

theorem treeOf_fun {g : Grammar} {st : PState} {k : Nat} {t t' : ParseTree} (h : TreeOf g st k t) (h' : TreeOf g st k t') : t = t' := by
  obtain ⟨tr, ks, h1, h2, rfl⟩ := h
  obtain ⟨tr', ks', h1', h2', rfl⟩ := h'
  rw [h1] at h1'; injection h1' with h1'; subst h1'
  rw [h2.fun h2']

theorem draws_replace {g S input it pre t post it'} (ho : Opened g S input it) (hd : Draws it (pre ++ t :: post) it') {t' : ParseTree}
    {l kk kk'} (hE : ∀ {ems}, Rounds (ParseGrammar.newUnchecked g) it.st ems it'.st → Earlier (ParseGrammar.newUnchecked g) it'.st l kk kk')
    (hr : Replaced (.nonterminal l kk) (.nonterminal l kk') [.nonterminal t.lhs t.rhs] [.nonterminal t'.lhs t'.rhs]) :
    t' ∈ pre := by
  obtain ⟨ems, hro, hi', hf, _⟩ := hd.rounds ho.inv.1
  obtain ⟨⟨h', _, ho'⟩, hsort, _⟩ := hro.order (PGOk.newUnchecked g) ho.inv.1.inv ho.order
  obtain ⟨_, _, _, hm⟩ := hro.inv (PGOk.newUnchecked g) ho.inv.1.inv
  have hE := hE hro
  obtain ⟨l1, k, l2, rfl, hf1, hk⟩ := forall₂_split hf
  obtain ⟨hp, _, hfull⟩ := (hm k).mp (by simp)
  obtain ⟨k0, hlt, hfull0, ht0⟩ := replace_full hi'.inv ho' hfull hk hE hr
  have hmem := (hm k0).mpr ⟨(ho'.popped k0).mpr (by have := (ho'.popped k).mp hp; omega), ho.inv.2 k0, hfull0⟩
  have hk0 : k0 ∈ l1 := by
    rcases List.mem_append.mp hmem with h | h
    · exact h
    · exfalso
      have h2 := (List.pairwise_append.mp hsort).2.1
      rcases List.mem_cons.mp h with rfl | h
      · omega
      · have := (List.pairwise_cons.mp h2).1 k0 h; omega
  obtain ⟨t1, ht1, hto⟩ := forall₂_mem_left hf1 hk0
  rw [treeOf_fun ht0 hto]
  exact ht1

theorem draws_order {g S input it pre t post it'} (ho : Opened g S input it) (hd : Draws it (pre ++ t :: post) it') {t' : ParseTree}
    {l kk kk'} (hin : NodeIn (.nonterminal l kk') kk) (hy : yield kk' = yield kk)
    (hr : Replaced (.nonterminal l kk) (.nonterminal l kk') [.nonterminal t.lhs t.rhs] [.nonterminal t'.lhs t'.rhs]) :
    t' ∈ pre :=
  draws_replace ho hd (fun {_} hro => earlier_inner (hro.inv (PGOk.newUnchecked g) ho.inv.1.inv).1 hin hy) hr

end Bnf
