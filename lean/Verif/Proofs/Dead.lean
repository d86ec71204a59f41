import Verif.Proofs.Chart
import Verif.Spec.Dead

/-! Look-ups that never succeed. -/

set_option autoImplicit false

namespace Bnf
open Spec

theorem popped_eq (st : PState) (rest : List Nat) : popped st rest = st.pop rest := rfl

theorem Spec.Visited.sim {g : Grammar} {S : Term} {input : Str} {st₀ st : PState} {h₀ : Nat} (hs : Sim g S input st₀ h₀)
    (hv : Visited (ParseGrammar.newUnchecked g) st₀ st) : ∃ h, Sim g S input st h := by
  induction hv with
  | refl => exact ⟨_, hs⟩
  | step _ hq hr ih =>
    obtain ⟨h, ih⟩ := ih
    exact ⟨_, (ih.step hq hr).1⟩

theorem matchTerm_edges {t t' : TravTree} {k id : Nat} {m : TermMatch} {tp : Traversal} (ht : t.get k = some tp) (hid : tp.id = k)
    (E : AMap Edge Nat) (h1 : t.edges.get ⟨m, k⟩ = none) (h2 : E.get ⟨m, k⟩ = none) (h : t.matchTerm k m = some (id, t')) :
    ({ t with edges := E } : TravTree).matchTerm k m = some (id, { t' with edges := E.set ⟨m, k⟩ id }) ∧
      t'.edges = t.edges.set ⟨m, k⟩ id ∧ ∃ new, t'.arena = t.arena ++ new := by
  have hr : ({ t with edges := E } : TravTree).matchRange tp m = t.matchRange tp m := by cases m <;> rfl
  have hg : ({ t with edges := E } : TravTree).get k = some tp := ht
  unfold TravTree.matchTerm at h ⊢
  rw [ht] at h
  rw [hg]
  simp only [hr] at h ⊢
  cases hmr : t.matchRange tp m with
  | none => simp [hmr] at h
  | some range =>
    simp only [hmr] at h ⊢
    cases hu : tp.unmatched with
    | nil => simp [hu] at h
    | cons T ts =>
      simp only [hu, hid, h1, h2, Option.some.injEq, Prod.mk.injEq] at h ⊢
      obtain ⟨rfl, rfl⟩ := h
      exact ⟨⟨rfl, rfl⟩, rfl, _, rfl⟩

theorem matchAll_edges (ms : List (Nat × TermMatch)) {t t' : TravTree} {q q' : TravQueue} (E : AMap Edge Nat)
    (hid : ∀ (k : Nat) tp, t.arena[k]? = some tp → tp.id = k) (hn : ms.Nodup)
    (hk : ∀ x ∈ ms, x.1 < t.arena.length)
    (h1 : ∀ x ∈ ms, t.edges.get ⟨x.2, x.1⟩ = none) (h2 : ∀ x ∈ ms, E.get ⟨x.2, x.1⟩ = none) (h : matchAll ms t q = some (t', q')) :
    ∃ E', matchAll ms { t with edges := E } q = some ({ t' with edges := E' }, q') := by
  induction ms generalizing t q E with
  | nil =>
    simp only [matchAll, Option.some.injEq, Prod.mk.injEq] at h
    obtain ⟨rfl, rfl⟩ := h
    exact ⟨E, rfl⟩
  | cons x xs ih =>
    obtain ⟨k, m⟩ := x
    obtain ⟨hnx, hnxs⟩ := List.nodup_cons.mp hn
    simp only [matchAll] at h ⊢
    cases hm : t.matchTerm k m with
    | none => simp [hm] at h
    | some r =>
      obtain ⟨id, t1⟩ := r
      simp only [hm] at h
      have hlt : k < t.arena.length := hk (k, m) (by simp)
      obtain ⟨tp, htp⟩ : ∃ tp, t.arena[k]? = some tp := ⟨_, List.getElem?_eq_getElem hlt⟩
      have hne : ∀ y ∈ xs, (⟨y.2, y.1⟩ : Edge) ≠ ⟨m, k⟩ := by
        intro y hy heq
        have e1 := congrArg Edge.term heq
        have e2 := congrArg Edge.parent heq
        simp only at e1 e2
        exact hnx (by rw [show (k, m) = y from Prod.ext e2.symm e1.symm]; exact hy)
      obtain ⟨e1, e2, new, e3⟩ := matchTerm_edges (tp := tp) htp (hid k tp htp) E (h1 (k, m) (by simp)) (h2 (k, m) (by simp)) hm
      rw [e1]
      simp only
      have hid1 : ∀ (j : Nat) tp, t1.arena[j]? = some tp → tp.id = j := by
        have hm' := hm
        unfold TravTree.matchTerm at hm'
        have hg : t.get k = some tp := htp
        rw [hg] at hm'
        simp only at hm'
        split at hm'
        · cases hm'
        · split at hm'
          · cases hm'
          · split at hm'
            · simp only [Option.some.injEq, Prod.mk.injEq] at hm'
              obtain ⟨_, rfl⟩ := hm'
              exact hid
            · simp only [Option.some.injEq, Prod.mk.injEq] at hm'
              obtain ⟨_, rfl⟩ := hm'
              intro j tp' hj
              rw [List.getElem?_append] at hj
              split at hj
              · exact hid j tp' hj
              · rename_i hlt'
                have h0 : j - t.arena.length = 0 := by
                  have := (List.getElem?_eq_some_iff.mp hj).1
                  simp at this
                  omega
                rw [h0] at hj
                simp only [List.getElem?_cons_zero, Option.some.injEq] at hj
                rw [← hj]
                simp only
                omega
      refine ih _ hid1 hnxs (fun y hy => ?_) (fun y hy => ?_) (fun y hy => ?_) h
      · have := hk y (by simp [hy])
        rw [e3, List.length_append]; omega
      · rw [e2, AMap.get_set, if_neg (fun h => hne y hy h.symm)]
        exact h1 y (by simp [hy])
      · rw [AMap.get_set, if_neg (fun h => hne y hy h.symm)]
        exact h2 y (by simp [hy])

theorem predictAll_edges {range : InputRange} {flag : Bool} (ps : List FlatProd) (t : TravTree) (q : TravQueue) (E : AMap Edge Nat) :
    predictAll range flag ps { t with edges := E } q =
      ({ (predictAll range flag ps t q).1 with edges := E }, (predictAll range flag ps t q).2) ∧
    (predictAll range flag ps t q).1.edges = t.edges ∧ ∃ new, (predictAll range flag ps t q).1.arena = t.arena ++ new := by
  induction ps generalizing t q with
  | nil => exact ⟨rfl, rfl, [], by simp [predictAll]⟩
  | cons p ps ih =>
    simp only [predictAll]
    unfold TravTree.predict
    simp only
    cases t.roots.get (p.id, range.totalLen) with
    | some k => exact ih t (q.pushBack k)
    | none =>
      obtain ⟨h1, h2, new, h3⟩ := ih ⟨t.arena ++ [⟨t.arena.length, p.rhs.terms, range.after, p.id, flag, none⟩],
        t.roots.set (p.id, range.totalLen) t.arena.length, t.edges⟩ (q.pushBack t.arena.length)
      exact ⟨h1, h2, ⟨t.arena.length, p.rhs.terms, range.after, p.id, flag, none⟩ :: new, by rw [h3]; simp⟩

/-- A round gives the same with an empty map of matches. -/
theorem Sim.round_edges {g : Grammar} {S : Term} {input : Str} {st : PState} {h : Nat} (hs : Sim g S input st h) {id : Nat} {rest : List Nat}
    {st' : PState} {b : Bool} (hq : st.queue.queue = id :: rest)
    (hr : earleyRound (ParseGrammar.newUnchecked g) (st.pop rest) id = some (st', b)) :
    ∃ E, earleyRound (ParseGrammar.newUnchecked g) (withEdges (st.pop rest) []) id = some (withEdges st' E, b) := by
  have hpg := PGOk.newUnchecked g
  obtain ⟨rfl, hlt, hrest⟩ := hs.ord.head hq
  obtain ⟨tr, htr⟩ : ∃ tr, st.tree.arena[id]? = some tr := ⟨_, List.getElem?_eq_getElem hlt⟩
  obtain ⟨x, p, hx, hrx, hxu, hp, hxl, hxs, hxr⟩ := hs.item htr
  have hok := hs.inv.s.entries id tr htr
  have hids : ∀ (k : Nat) tp, (st.pop rest).tree.arena[k]? = some tp → tp.id = k := hs.ord.basic.ids
  have hget : (st.pop rest).tree.get id = some tr := htr
  have hget' : (withEdges (st.pop rest) []).tree.get id = some tr := htr
  have hpid : (ParseGrammar.newUnchecked g).prodById tr.prodId = some p := hp
  have hcins := hs.inv.c.insert htr hok.id_eq hp
  have hempty : ∀ e, AMap.get ([] : AMap Edge Nat) e = none := fun e => rfl
  unfold earleyRound at hr ⊢
  rw [hget] at hr
  rw [hget']
  simp only [Traversal.nextUnmatched] at hr ⊢
  cases hu : tr.unmatched with
  | nil =>
    simp only [hu, List.head?_nil, hpid] at hr ⊢
    have hinc : ∀ i, i ∈ ((st.pop rest).completions.insert tr p.lhs).getIncomplete p.lhs tr → i < id := by
      intro i hi'
      unfold CompletionMap.getIncomplete at hi'
      simp only [PState.pop] at hi'
      rw [hcins.inc] at hi'
      obtain ⟨h1 | rfl, t, n, rst, ht, htu, _⟩ := hi'
      · exact (hs.ord.popped i).mp h1
      · rw [htr] at ht; injection ht with ht; subst ht; rw [hu] at htu; cases htu
    have hsort : (((st.pop rest).completions.insert tr p.lhs).getIncomplete p.lhs tr).Pairwise (· < ·) :=
      hcins.incS (p.lhs, tr.range.start)
    have hc : (withEdges (st.pop rest) []).completions = (st.pop rest).completions := rfl
    rw [hc]
    revert hr hinc hsort
    generalize ((st.pop rest).completions.insert tr p.lhs).getIncomplete p.lhs tr = I
    intro hr hinc hsort
    split at hr
    · cases hr
    · rename_i t' q' hm
      simp only [Option.some.injEq, Prod.mk.injEq] at hr
      obtain ⟨rfl, rfl⟩ := hr
      obtain ⟨E, hE⟩ := matchAll_edges (I.map fun i => (i, TermMatch.nonterminal id)) [] hids
        (List.Nodup.map (fun a b hab => (Prod.mk.injEq _ _ _ _ ▸ hab).1) (hsort.imp fun h => Nat.ne_of_lt h)) (by
          intro y hy
          obtain ⟨i, hi, rfl⟩ := List.mem_map.mp hy
          have := hinc i hi
          exact Nat.lt_trans this hlt) (by
          intro y hy
          obtain ⟨i, hi, rfl⟩ := List.mem_map.mp hy
          have := hinc i hi
          refine OInv.fresh hs.inv hs.ord ?_
          simp only [Edge.round, TermMatch.child]
          omega) (fun y _ => hempty _) hm
      refine ⟨E, ?_⟩
      simp only [withEdges]
      rw [hE]
  | cons T ts =>
    cases T with
    | terminal s =>
      simp only [hu, List.head?_cons] at hr ⊢
      by_cases hsw : startsWith tr.range.next s = true
      · rw [if_pos hsw] at hr ⊢
        split at hr
        · cases hr
        · rename_i t' q' hm
          simp only [Option.some.injEq, Prod.mk.injEq] at hr
          obtain ⟨rfl, rfl⟩ := hr
          obtain ⟨E, hE⟩ := matchAll_edges [(id, TermMatch.terminal s)] [] hids (by simp)
            (by simp only [List.mem_singleton, forall_eq]; exact hlt) (by
            intro y hy
            simp only [List.mem_singleton] at hy
            subst hy
            refine OInv.fresh hs.inv hs.ord ?_
            simp [Edge.round, TermMatch.child]) (fun y _ => hempty _) hm
          refine ⟨E, ?_⟩
          simp only [withEdges]
          rw [hE]
      · rw [if_neg hsw] at hr ⊢
        simp only [Option.some.injEq, Prod.mk.injEq] at hr
        obtain ⟨rfl, rfl⟩ := hr
        exact ⟨[], rfl⟩
    | nonterminal n =>
      simp only [hu, List.head?_cons, hpid, hpg.prodsFor] at hr ⊢
      have hcom : ∀ i, i ∈ ((st.pop rest).completions.insert tr p.lhs).getComplete (.nonterminal n) tr.range → i < id := by
        intro i hi'
        unfold CompletionMap.getComplete at hi'
        simp only [PState.pop] at hi'
        rw [hcins.com] at hi'
        obtain ⟨h1 | rfl, t, pc, ht, htu, _⟩ := hi'
        · exact (hs.ord.popped i).mp h1
        · rw [htr] at ht; injection ht with ht; subst ht; rw [hu] at htu; cases htu
      have hsort : (((st.pop rest).completions.insert tr p.lhs).getComplete (.nonterminal n) tr.range).Pairwise (· < ·) :=
        hcins.comS (.nonterminal n, tr.range.totalLen)
      have hc : (withEdges (st.pop rest) []).completions = (st.pop rest).completions := rfl
      rw [hc]
      obtain ⟨hp1, hp2, new, hp3⟩ := predictAll_edges (range := tr.range) (flag := false)
        ((ParseGrammar.newUnchecked g).productions.filter (fun p => p.lhs = .nonterminal n)) (st.pop rest).tree (st.pop rest).queue []
      have hb : Basic (st.pop rest).tree (st.pop rest).queue (id + 1) :=
        ⟨hs.ord.basic.ids, hs.ord.basic.proc, hs.ord.basic.roots, hs.ord.basic.edges, hlt, hrest⟩
      have hids1 := (predictAll_order (range := tr.range) (flag := false)
        ((ParseGrammar.newUnchecked g).productions.filter (fun p => p.lhs = .nonterminal n)) hb hs.ord.ordered).1.ids
      have e : predictAll tr.range false ((ParseGrammar.newUnchecked g).productions.filter (fun p => p.lhs = .nonterminal n))
        (withEdges (st.pop rest) []).tree (withEdges (st.pop rest) []).queue = _ := hp1
      rw [e]
      revert hr hcom hsort hp2 hp3 hids1
      generalize ((st.pop rest).completions.insert tr p.lhs).getComplete (.nonterminal n) tr.range = I
      generalize predictAll tr.range false ((ParseGrammar.newUnchecked g).productions.filter (fun p => p.lhs = .nonterminal n))
        (st.pop rest).tree (st.pop rest).queue = R
      intro hr hcom hsort hp2 hp3 hids1
      split at hr
      · cases hr
      · rename_i t' q' hm
        simp only [Option.some.injEq, Prod.mk.injEq] at hr
        obtain ⟨rfl, rfl⟩ := hr
        obtain ⟨E, hE⟩ := matchAll_edges (I.map fun c => (id, TermMatch.nonterminal c)) [] hids1 (by
            refine List.Nodup.map (fun a b hab => ?_) (hsort.imp fun h => Nat.ne_of_lt h)
            have := (Prod.mk.injEq _ _ _ _ ▸ hab).2
            injection this) (by
            intro y hy
            obtain ⟨i, hi, rfl⟩ := List.mem_map.mp hy
            rw [hp3, List.length_append]
            exact Nat.lt_of_lt_of_le hlt (Nat.le_add_right _ _)) (by
            intro y hy
            obtain ⟨i, hi, rfl⟩ := List.mem_map.mp hy
            have := hcom i hi
            rw [hp2]
            refine OInv.fresh hs.inv hs.ord ?_
            simp only [Edge.round, TermMatch.child]
            omega) (fun y _ => hempty _) hm
        refine ⟨E, ?_⟩
        simp only [hE]
        rfl

end Bnf
