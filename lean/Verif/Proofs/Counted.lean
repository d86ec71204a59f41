import Verif.Proofs.Dead
import Verif.Proofs.Work
import Verif.Spec.Counted
import Mathlib.Tactic.Ring
import Mathlib.Algebra.BigOperators.Fin
import Mathlib.Data.Fintype.Fin

/-! Everything that the loops of the parser do, counted. -/

set_option autoImplicit false

namespace Bnf
open Spec

/-! ## The counting functions compute the same -/

theorem predictAllC_eq (range : InputRange) (b : Bool) (ps : List FlatProd) (t : TravTree) (q : TravQueue) :
    predictAllC range b ps t q = (predictAll range b ps t q, ps.length) := by
  induction ps generalizing t q with
  | nil => rfl
  | cons p ps ih => simp only [predictAllC, predictAll, ih, List.length_cons]

theorem matchAllC_eq (ms : List (Nat × TermMatch)) (t : TravTree) (q : TravQueue) :
    matchAllC ms t q = (matchAll ms t q).map fun r => (r, ms.length) := by
  induction ms generalizing t q with
  | nil => rfl
  | cons x xs ih =>
    obtain ⟨k, m⟩ := x
    simp only [matchAllC, matchAll]
    cases t.matchTerm k m with
    | none => rfl
    | some r =>
      simp only [ih]
      cases matchAll xs r.2 (q.pushBack r.1) <;> rfl

theorem earleyRoundC_eq (pg : ParseGrammar) (st : PState) (id : Nat) :
    (earleyRoundC pg st id).map (fun r => (r.1, r.2.1)) = earleyRound pg st id := by
  unfold earleyRoundC earleyRound
  simp only [predictAllC_eq, matchAllC_eq]
  cases st.tree.get id with
  | none => rfl
  | some tr =>
    simp only
    cases tr.nextUnmatched with
    | none =>
      simp only
      cases pg.prodById tr.prodId with
      | none => rfl
      | some p =>
        simp only
        cases matchAll ((CompletionMap.getIncomplete (st.completions.insert tr p.lhs) p.lhs tr).map fun i => (i, TermMatch.nonterminal id)) st.tree st.queue <;> rfl
    | some T =>
      cases T with
      | terminal s =>
        simp only
        by_cases hs : startsWith tr.range.next s = true
        · rw [if_pos hs, if_pos hs]
          cases matchAll [(id, TermMatch.terminal s)] st.tree st.queue <;> rfl
        · rw [if_neg hs, if_neg hs]; rfl
      | nonterminal n =>
        simp only
        cases pg.prodById tr.prodId with
        | none => rfl
        | some p =>
          simp only
          cases pg.prodsFor (.nonterminal n) with
          | none => rfl
          | some prods =>
            simp only
            cases matchAll ((CompletionMap.getComplete (st.completions.insert tr p.lhs) (.nonterminal n) tr.range).map fun c => (id, TermMatch.nonterminal c))
              (predictAll tr.range false prods st.tree st.queue).1 (predictAll tr.range false prods st.tree st.queue).2 <;> rfl

theorem earleyC_eq (pg : ParseGrammar) (fuel : Nat) (st : PState) : withoutCounts (earleyC pg fuel st) = earley pg fuel st := by
  induction fuel generalizing st with
  | zero => rfl
  | succ fuel ih =>
    simp only [earleyC, earley]
    cases st.queue.queue with
    | nil => rfl
    | cons id rest =>
      simp only
      rw [← earleyRoundC_eq]
      cases earleyRoundC pg { st with queue := { st.queue with queue := rest } } id with
      | none => rfl
      | some r =>
        obtain ⟨st', b, c⟩ := r
        cases b with
        | true => rfl
        | false =>
          simp only [Option.map_some, ← ih]
          cases earleyC pg fuel st' with
          | outOfFuel => rfl
          | panic => rfl
          | returned r => rfl

theorem walkRootC_eq (t : TravTree) (fuel cur : Nat) : (t.walkRootC fuel cur).map (·.1) = t.walkRoot fuel cur := by
  induction fuel generalizing cur with
  | zero => rfl
  | succ fuel ih =>
    simp only [TravTree.walkRootC, TravTree.walkRoot]
    cases t.get cur with
    | none => rfl
    | some tr =>
      simp only
      cases tr.src with
      | none => rfl
      | some e => simp only [← ih]; cases t.walkRootC fuel e.parent <;> rfl

theorem scanUpC_eq (t : TravTree) (current fuel scan : Nat) : (t.scanUpC current fuel scan).map (·.1) = t.scanUp current fuel scan := by
  induction fuel generalizing scan with
  | zero => rfl
  | succ fuel ih =>
    simp only [TravTree.scanUpC, TravTree.scanUp]
    cases t.get scan with
    | none => rfl
    | some tr =>
      simp only
      cases tr.src with
      | none => rfl
      | some e =>
        simp only
        by_cases hc : current = e.parent
        · rw [if_pos hc, if_pos hc]; rfl
        · rw [if_neg hc, if_neg hc, ← ih]
          cases t.scanUpC current fuel e.parent <;> rfl

theorem collectMatchesC_eq (t : TravTree) (last fuel current : Nat) : (t.collectMatchesC last fuel current).map (·.1) = t.collectMatches last fuel current := by
  induction fuel generalizing current with
  | zero => rfl
  | succ fuel ih =>
    simp only [TravTree.collectMatchesC, TravTree.collectMatches]
    by_cases hc : current = last
    · rw [if_pos hc, if_pos hc]; rfl
    · rw [if_neg hc, if_neg hc, ← scanUpC_eq]
      cases t.scanUpC current (t.arena.length + 1) last with
      | none => rfl
      | some r =>
        obtain ⟨r, n⟩ := r
        cases r with
        | none => rfl
        | some r =>
          simp only [Option.map_some, ← ih]
          cases t.collectMatchesC last fuel r.2 <;> rfl

theorem getMatchedC_eq (t : TravTree) (id : Nat) : (t.getMatchedC id).map (·.1) = t.getMatched id := by
  unfold TravTree.getMatchedC TravTree.getMatched
  rw [← walkRootC_eq]
  cases t.walkRootC (t.arena.length + 1) id with
  | none => rfl
  | some r =>
    simp only [Option.map_some, ← collectMatchesC_eq]
    cases t.collectMatchesC id (t.arena.length + 1) r.1 <;> rfl

theorem mapM_fst {α β γ : Type} (f : α → Option (β × γ)) (l : List α) : (l.mapM f).map (fun r => r.map (·.1)) = l.mapM fun a => (f a).map (·.1) := by
  induction l with
  | nil => rfl
  | cons a l ih =>
    rw [List.mapM_cons, List.mapM_cons, ← ih]
    cases f a with
    | none => rfl
    | some r => cases l.mapM f <;> rfl

theorem parseTreeC_eq (t : TravTree) (pg : ParseGrammar) (fuel id : Nat) : (parseTreeC t pg fuel id).map (·.1) = parseTree t pg fuel id := by
  induction fuel generalizing id with
  | zero => rfl
  | succ fuel ih =>
    simp only [parseTreeC, parseTree]
    cases t.get id with
    | none => rfl
    | some tr =>
      simp only
      cases pg.prodById tr.prodId with
      | none => rfl
      | some p =>
        simp only
        rw [← getMatchedC_eq]
        cases t.getMatchedC id with
        | none => rfl
        | some r =>
          obtain ⟨ms, n⟩ := r
          simp only [Option.map_some]
          let F : TermMatch → Option (ParseTreeNode × Nat) := fun m => match m with
            | .terminal s => some (.terminal s, 0)
            | .nonterminal c =>
              match parseTreeC t pg fuel c with
              | none => none
              | some (pt, k) => some (.nonterminal pt.lhs pt.rhs, k)
          let G : TermMatch → Option ParseTreeNode := fun m => match m with
            | .terminal s => some (.terminal s)
            | .nonterminal c =>
              match parseTree t pg fuel c with
              | none => none
              | some pt => some (.nonterminal pt.lhs pt.rhs)
          have h2 : (fun m => (F m).map (·.1)) = G := by
            funext m
            cases m with
            | terminal s => rfl
            | nonterminal c =>
              simp only [F, G]
              rw [← ih]
              cases parseTreeC t pg fuel c <;> rfl
          have h := mapM_fst F ms
          rw [h2] at h
          change Option.map _ (match ms.mapM F with
            | none => none
            | some rhs => some ((⟨p.lhs, rhs.map (·.1)⟩ : ParseTree), 1 + n + (rhs.map (·.2)).sum)) =
            (match ms.mapM G with
            | none => none
            | some rhs => some (⟨p.lhs, rhs⟩ : ParseTree))
          rw [← h]
          cases ms.mapM F <;> rfl

theorem nextC_eq (it : ParseTreeIter) (fuel : Nat) : withoutCounts (it.nextC fuel) = it.next fuel := by
  unfold ParseTreeIter.nextC ParseTreeIter.next
  rw [← earleyC_eq]
  cases earleyC it.parser.parseGrammar fuel it.st with
  | outOfFuel => rfl
  | panic => rfl
  | returned r =>
    obtain ⟨r, st, c⟩ := r
    cases r with
    | none => rfl
    | some id =>
      simp only [withoutCounts]
      rw [← parseTreeC_eq]
      cases parseTreeC st.tree it.parser.parseGrammar (st.tree.arena.length + 1) id <;> rfl

/-! ## Reading trees -/

theorem scanUpC_chain {pg input S t q} (h : SInv pg input S t q) {cur ms last} (hc : Chain t.arena cur ms last)
    (hne : ms ≠ []) (fuel : Nat) (hf : last < fuel) :
    ∃ m ms' c1, ms = m :: ms' ∧ Chain t.arena c1 ms' last ∧ t.scanUpC cur fuel last = some (some (m, c1), ms.length) := by
  induction hc generalizing fuel with
  | refl => exact absurd rfl hne
  | @snoc ms par k tr m hch hk hs ih =>
    cases fuel with
    | zero => omega
    | succ fuel =>
      have hlt := ((h.entries k tr hk).link _ hs).1
      simp only at hlt
      have hget : t.get k = some tr := hk
      unfold TravTree.scanUpC
      simp only [hget, hs]
      by_cases heq : cur = par
      · subst heq
        have := hch.len h
        have hnil : ms = [] := List.eq_nil_of_length_eq_zero (by omega)
        subst hnil
        exact ⟨m, [], k, rfl, .refl, by simp⟩
      · have hms : ms ≠ [] := by
          intro hnil
          exact heq (hch.nil_eq hnil)
        obtain ⟨m', ms', c1, e, hch', hsc⟩ := ih hms fuel (by omega)
        exact ⟨m', ms' ++ [m], c1, by simp [e], .snoc hch' hk hs, by rw [if_neg heq, hsc]; simp⟩

theorem collectMatchesC_chain {pg input S t q} (h : SInv pg input S t q) {ms : List TermMatch} :
    ∀ {cur last}, Chain t.arena cur ms last → last < t.arena.length → ∀ fuel, ms.length < fuel →
    t.collectMatchesC last fuel cur = some (ms, ms.length * (ms.length + 1) / 2) := by
  induction ms with
  | nil =>
    intro cur last hc _ fuel hf
    have : cur = last := hc.nil_eq rfl
    subst this
    cases fuel with
    | zero => omega
    | succ fuel => simp [TravTree.collectMatchesC]
  | cons m ms ih =>
    intro cur last hc hl fuel hf
    have hlen := hc.len h
    cases fuel with
    | zero => omega
    | succ fuel =>
      simp at hf hlen
      unfold TravTree.collectMatchesC
      rw [if_neg (by omega)]
      obtain ⟨m', ms', c1, e, hch, hsc⟩ := scanUpC_chain h hc (by simp) (t.arena.length + 1) (by omega)
      injection e with e1 e2
      subst e1 e2
      simp only [hsc]
      rw [ih hch hl fuel hf]
      simp only [List.length_cons, Option.some.injEq, Prod.mk.injEq, true_and]
      have : (ms.length + 1) * (ms.length + 1 + 1) = 2 * (ms.length + 1) + ms.length * (ms.length + 1) := by ring
      omega

theorem walkRootC_chain {pg input S t q} (h : SInv pg input S t q) {r ms k} (hc : Chain t.arena r ms k)
    {tr : Traversal} (hr : t.arena[r]? = some tr) (hs : tr.src = none) (fuel : Nat) (hf : k < fuel) :
    t.walkRootC fuel k = some (r, ms.length + 1) := by
  induction hc generalizing fuel with
  | refl =>
    cases fuel with
    | zero => omega
    | succ fuel =>
      have hget : t.get r = some tr := hr
      simp [TravTree.walkRootC, hget, hs]
  | @snoc ms par k tr' m hch hk hs' ih =>
    cases fuel with
    | zero => omega
    | succ fuel =>
      have hlt := ((h.entries k tr' hk).link _ hs').1
      simp only at hlt
      have hget : t.get k = some tr' := hk
      simp only [TravTree.walkRootC, hget, hs']
      rw [ih fuel (by omega)]
      simp

theorem getMatchedC_den {pg input S t q} (h : SInv pg input S t q) {k ks} (hd : Den t.arena k ks) :
    ∃ ms, t.getMatchedC k = some (ms, (ks.length + 1) * (ks.length + 2) / 2) ∧ List.Forall₂ (MD t.arena k) ms ks := by
  obtain ⟨r, ms, tr, hc, hr, hrs, hf⟩ := den_chain h hd
  have hk : k < t.arena.length := by
    cases hd with
    | root hk _ => exact (List.getElem?_eq_some_iff.mp hk).1
    | leaf hk _ _ => exact (List.getElem?_eq_some_iff.mp hk).1
    | node hk _ _ _ _ => exact (List.getElem?_eq_some_iff.mp hk).1
  have hl := hc.len h
  refine ⟨ms, ?_, hf⟩
  unfold TravTree.getMatchedC
  rw [walkRootC_chain h hc hr hrs _ (by omega)]
  simp only
  rw [collectMatchesC_chain h hc hk _ (by omega), ← hf.length_eq]
  simp only [Option.some.injEq, Prod.mk.injEq, true_and]
  have : (ms.length + 1) * (ms.length + 2) = 2 * (ms.length + 1) + ms.length * (ms.length + 1) := by ring
  omega

theorem kidsReading_map (ns : List ParseTreeNode) : kidsReading ns = (ns.map nodeReading).sum := by
  induction ns with
  | nil => rfl
  | cons n ns ih => simp [kidsReading, ih]

theorem parseTreeC_den {pg input S t q} (h : SInv pg input S t q) (fuel : Nat) :
    ∀ {k ks tr}, t.arena[k]? = some tr → Den t.arena k ks → k < fuel →
    parseTreeC t pg fuel k = some (⟨lhsOf pg tr.prodId, erase pg ks⟩, treeReading ⟨lhsOf pg tr.prodId, erase pg ks⟩) := by
  induction fuel with
  | zero => intro k ks tr _ _ hlt; omega
  | succ fuel ih =>
    intro k ks tr hk hd hlt
    have hget : t.get k = some tr := hk
    obtain ⟨p, hp⟩ := (h.entries k tr hk).prod
    have hpid : pg.prodById tr.prodId = some p := hp
    obtain ⟨ms, hms, hf⟩ := getMatchedC_den h hd
    unfold parseTreeC
    simp only [hget, hpid, hms]
    rw [mapM_forall₂ (g := fun d => (eraseNode pg d, nodeReading (eraseNode pg d))) hf]
    · simp only [lhsOf, hp, erase_eq_map, List.map_map, treeReading, nodeReading, kidsReading_map, List.length_map]
      rfl
    · intro m d hmd
      cases hmd with
      | leaf => rfl
      | @node c tc kids hc htc hdc =>
        simp only
        rw [ih htc hdc (by omega)]
        simp [eraseNode, treeReading]

/-! ## What a round adds -/

/-- The entry waits for a terminal. -/
def waitsTerminal (tr : Traversal) : Bool :=
  match tr.unmatched with
  | .terminal _ :: _ => true
  | _ => false

/-- Alternatives of the nonterminal for which the entry waits. -/
def awaited (pg : ParseGrammar) (tr : Traversal) : List FlatProd :=
  match tr.unmatched with
  | .nonterminal n :: _ => pg.productions.filter (fun p => p.lhs = .nonterminal n)
  | _ => []

theorem matchTerm_fresh {t t' : TravTree} {k id : Nat} {m : TermMatch} {tp : Traversal} (ht : t.get k = some tp) (hid : tp.id = k)
    (h1 : t.edges.get ⟨m, k⟩ = none) (h : t.matchTerm k m = some (id, t')) :
    t'.edges = t.edges.set ⟨m, k⟩ id ∧ ∃ e, t'.arena = t.arena ++ [e] ∧ e.id = t.arena.length ∧ e.src.isSome = true := by
  unfold TravTree.matchTerm at h
  rw [ht] at h
  simp only at h
  cases hmr : t.matchRange tp m with
  | none => simp [hmr] at h
  | some range =>
    simp only [hmr] at h
    cases hu : tp.unmatched with
    | nil => simp [hu] at h
    | cons T ts =>
      simp only [hu, hid, h1, Option.some.injEq, Prod.mk.injEq] at h
      obtain ⟨rfl, rfl⟩ := h
      exact ⟨rfl, _, rfl, rfl, rfl⟩

theorem matchAll_fresh (ms : List (Nat × TermMatch)) {t t' : TravTree} {q q' : TravQueue}
    (hid : ∀ (k : Nat) tp, t.arena[k]? = some tp → tp.id = k) (hn : ms.Nodup)
    (hk : ∀ x ∈ ms, x.1 < t.arena.length) (h1 : ∀ x ∈ ms, t.edges.get ⟨x.2, x.1⟩ = none) (h : matchAll ms t q = some (t', q')) :
    ∃ new, t'.arena = t.arena ++ new ∧ new.countP (·.src.isSome) = ms.length := by
  induction ms generalizing t q with
  | nil =>
    simp only [matchAll, Option.some.injEq, Prod.mk.injEq] at h
    obtain ⟨rfl, rfl⟩ := h
    exact ⟨[], by simp, rfl⟩
  | cons x xs ih =>
    obtain ⟨k, m⟩ := x
    obtain ⟨hnx, hnxs⟩ := List.nodup_cons.mp hn
    simp only [matchAll] at h
    cases hm : t.matchTerm k m with
    | none => simp [hm] at h
    | some r =>
      obtain ⟨id, t1⟩ := r
      simp only [hm] at h
      have hlt : k < t.arena.length := hk (k, m) (by simp)
      obtain ⟨tp, htp⟩ : ∃ tp, t.arena[k]? = some tp := ⟨_, List.getElem?_eq_getElem hlt⟩
      have hne : ∀ y ∈ xs, (⟨y.2, y.1⟩ : Edge) ≠ ⟨m, k⟩ := by
        intro y hy heq
        have e1 := congrArg Edge.term heq
        have e2 := congrArg Edge.parent heq
        simp only at e1 e2
        exact hnx (by rw [show (k, m) = y from Prod.ext e2.symm e1.symm]; exact hy)
      obtain ⟨e2, e, e3, e4, e5⟩ := matchTerm_fresh (tp := tp) htp (hid k tp htp) (h1 (k, m) (by simp)) hm
      obtain ⟨new, h2, h3⟩ := ih (by
        intro j tp' hj
        rw [e3, List.getElem?_append] at hj
        split at hj
        · exact hid j tp' hj
        · have h0 : j - t.arena.length = 0 := by
            have := (List.getElem?_eq_some_iff.mp hj).1
            simp at this
            omega
          rw [h0] at hj
          simp only [List.getElem?_cons_zero, Option.some.injEq] at hj
          rw [← hj, e4]
          omega) hnxs (fun y hy => by
        have := hk y (by simp [hy])
        rw [e3, List.length_append]; omega) (fun y hy => by
        rw [e2, AMap.get_set, if_neg (fun h => hne y hy h.symm)]
        exact h1 y (by simp [hy])) h
      exact ⟨e :: new, by rw [h2, e3]; simp, by rw [List.countP_cons, h3, e5]; simp⟩

theorem predictAll_src {range : InputRange} {flag : Bool} (ps : List FlatProd) (t : TravTree) (q : TravQueue) :
    ∃ new, (predictAll range flag ps t q).1.arena = t.arena ++ new ∧ new.countP (·.src.isSome) = 0 := by
  induction ps generalizing t q with
  | nil => exact ⟨[], by simp [predictAll], rfl⟩
  | cons p ps ih =>
    simp only [predictAll]
    unfold TravTree.predict
    simp only
    cases t.roots.get (p.id, range.totalLen) with
    | some k => exact ih t (q.pushBack k)
    | none =>
      obtain ⟨new, h3, h4⟩ := ih ⟨t.arena ++ [⟨t.arena.length, p.rhs.terms, range.after, p.id, flag, none⟩],
        t.roots.set (p.id, range.totalLen) t.arena.length, t.edges⟩ (q.pushBack t.arena.length)
      exact ⟨⟨t.arena.length, p.rhs.terms, range.after, p.id, flag, none⟩ :: new, by rw [h3]; simp,
        by rw [List.countP_cons, h4]; simp⟩

/-- What a round counts. -/
theorem Sim.round_counts {g : Grammar} {S : Term} {input : Str} {st : PState} {h : Nat} (hs : Sim g S input st h) {id : Nat} {rest : List Nat}
    {st' : PState} {b : Bool} {c : Calls} (hq : st.queue.queue = id :: rest)
    (hr : earleyRoundC (ParseGrammar.newUnchecked g) (st.pop rest) id = some (st', b, c)) :
    ∃ tr new, st.tree.arena[h]? = some tr ∧ st'.tree.arena = st.tree.arena ++ new ∧
      c = ⟨1, (awaited (ParseGrammar.newUnchecked g) tr).length, new.countP (·.src.isSome), if waitsTerminal tr then 1 else 0, 0⟩ := by
  have hpg := PGOk.newUnchecked g
  obtain ⟨rfl, hlt, hrest⟩ := hs.ord.head hq
  obtain ⟨tr, htr⟩ : ∃ tr, st.tree.arena[id]? = some tr := ⟨_, List.getElem?_eq_getElem hlt⟩
  obtain ⟨x, p, hx, hrx, hxu, hp, hxl, hxs, hxr⟩ := hs.item htr
  have hok := hs.inv.s.entries id tr htr
  have hids : ∀ (k : Nat) tp, (st.pop rest).tree.arena[k]? = some tp → tp.id = k := hs.ord.basic.ids
  have hget : (st.pop rest).tree.get id = some tr := htr
  have hpid : (ParseGrammar.newUnchecked g).prodById tr.prodId = some p := hp
  have hcins := hs.inv.c.insert htr hok.id_eq hp
  unfold earleyRoundC at hr
  rw [hget] at hr
  simp only [Traversal.nextUnmatched, predictAllC_eq, matchAllC_eq] at hr
  cases hu : tr.unmatched with
  | nil =>
    simp only [hu, List.head?_nil, hpid] at hr
    have hinc : ∀ i, i ∈ ((st.pop rest).completions.insert tr p.lhs).getIncomplete p.lhs tr → i < id := by
      intro i hi'
      unfold CompletionMap.getIncomplete at hi'
      simp only [PState.pop] at hi'
      rw [hcins.inc] at hi'
      obtain ⟨h1 | rfl, t, n, rst, ht, htu, _⟩ := hi'
      · exact (hs.ord.popped i).mp h1
      · rw [htr] at ht; injection ht with ht; subst ht; rw [hu] at htu; cases htu
    have hsort : (((st.pop rest).completions.insert tr p.lhs).getIncomplete p.lhs tr).Pairwise (· < ·) :=
      hcins.incS (p.lhs, tr.range.start)
    revert hr hinc hsort
    generalize ((st.pop rest).completions.insert tr p.lhs).getIncomplete p.lhs tr = I
    intro hr hinc hsort
    cases hm : matchAll (I.map fun i => (i, TermMatch.nonterminal id)) (st.pop rest).tree (st.pop rest).queue with
    | none => simp [hm] at hr
    | some r =>
      obtain ⟨t', q'⟩ := r
      simp only [hm, Option.map_some, Option.some.injEq, Prod.mk.injEq] at hr
      obtain ⟨rfl, rfl, rfl⟩ := hr
      obtain ⟨new, h1, h2⟩ := matchAll_fresh (I.map fun i => (i, TermMatch.nonterminal id)) hids
        (List.Nodup.map (fun a b hab => (Prod.mk.injEq _ _ _ _ ▸ hab).1) (hsort.imp fun h => Nat.ne_of_lt h)) (by
          intro y hy
          obtain ⟨i, hi, rfl⟩ := List.mem_map.mp hy
          have := hinc i hi
          exact Nat.lt_trans this hlt) (by
          intro y hy
          obtain ⟨i, hi, rfl⟩ := List.mem_map.mp hy
          have := hinc i hi
          refine OInv.fresh hs.inv hs.ord ?_
          simp only [Edge.round, TermMatch.child]
          omega) hm
      exact ⟨tr, new, htr, h1, by rw [h2]; simp [awaited, waitsTerminal, hu]⟩
  | cons T ts =>
    cases T with
    | terminal s =>
      simp only [hu, List.head?_cons] at hr
      by_cases hsw : startsWith tr.range.next s = true
      · rw [if_pos hsw] at hr
        cases hm : matchAll [(id, TermMatch.terminal s)] (st.pop rest).tree (st.pop rest).queue with
        | none => simp [hm] at hr
        | some r =>
          obtain ⟨t', q'⟩ := r
          simp only [hm, Option.map_some, Option.some.injEq, Prod.mk.injEq] at hr
          obtain ⟨rfl, rfl, rfl⟩ := hr
          obtain ⟨new, h1, h2⟩ := matchAll_fresh [(id, TermMatch.terminal s)] hids (by simp)
            (by simp only [List.mem_singleton, forall_eq]; exact hlt) (by
            intro y hy
            simp only [List.mem_singleton] at hy
            subst hy
            refine OInv.fresh hs.inv hs.ord ?_
            simp [Edge.round, TermMatch.child]) hm
          exact ⟨tr, new, htr, h1, by rw [h2]; simp [awaited, waitsTerminal, hu]⟩
      · rw [if_neg hsw] at hr
        simp only [Option.some.injEq, Prod.mk.injEq] at hr
        obtain ⟨rfl, rfl, rfl⟩ := hr
        exact ⟨tr, [], htr, by simp [PState.pop], by simp [awaited, waitsTerminal, hu]⟩
    | nonterminal n =>
      simp only [hu, List.head?_cons, hpid, hpg.prodsFor] at hr
      have hcom : ∀ i, i ∈ ((st.pop rest).completions.insert tr p.lhs).getComplete (.nonterminal n) tr.range → i < id := by
        intro i hi'
        unfold CompletionMap.getComplete at hi'
        simp only [PState.pop] at hi'
        rw [hcins.com] at hi'
        obtain ⟨h1 | rfl, t, pc, ht, htu, _⟩ := hi'
        · exact (hs.ord.popped i).mp h1
        · rw [htr] at ht; injection ht with ht; subst ht; rw [hu] at htu; cases htu
      have hsort : (((st.pop rest).completions.insert tr p.lhs).getComplete (.nonterminal n) tr.range).Pairwise (· < ·) :=
        hcins.comS (.nonterminal n, tr.range.totalLen)
      obtain ⟨_, hp2, _⟩ := predictAll_edges (range := tr.range) (flag := false)
        ((ParseGrammar.newUnchecked g).productions.filter (fun p => p.lhs = .nonterminal n)) (st.pop rest).tree (st.pop rest).queue []
      obtain ⟨new, hp3, hp4⟩ := predictAll_src (range := tr.range) (flag := false)
        ((ParseGrammar.newUnchecked g).productions.filter (fun p => p.lhs = .nonterminal n)) (st.pop rest).tree (st.pop rest).queue
      have hb : Basic (st.pop rest).tree (st.pop rest).queue (id + 1) :=
        ⟨hs.ord.basic.ids, hs.ord.basic.proc, hs.ord.basic.roots, hs.ord.basic.edges, hlt, hrest⟩
      have hids1 := (predictAll_order (range := tr.range) (flag := false)
        ((ParseGrammar.newUnchecked g).productions.filter (fun p => p.lhs = .nonterminal n)) hb hs.ord.ordered).1.ids
      have haw : (awaited (ParseGrammar.newUnchecked g) tr).length =
          ((ParseGrammar.newUnchecked g).productions.filter (fun p => p.lhs = .nonterminal n)).length := by simp [awaited, hu]
      rw [← haw] at hr
      revert hr hcom hsort hp2 hp3 hids1
      generalize ((st.pop rest).completions.insert tr p.lhs).getComplete (.nonterminal n) tr.range = I
      generalize predictAll tr.range false ((ParseGrammar.newUnchecked g).productions.filter (fun p => p.lhs = .nonterminal n))
        (st.pop rest).tree (st.pop rest).queue = R
      intro hr hcom hsort hp2 hp3 hids1
      cases hm : matchAll (I.map fun c => (id, TermMatch.nonterminal c)) R.1 R.2 with
      | none => simp [hm] at hr
      | some r =>
        obtain ⟨t', q'⟩ := r
        simp only [hm, Option.map_some, Option.some.injEq, Prod.mk.injEq] at hr
        obtain ⟨rfl, rfl, rfl⟩ := hr
        obtain ⟨new', h1, h2⟩ := matchAll_fresh (I.map fun c => (id, TermMatch.nonterminal c)) hids1 (by
            refine List.Nodup.map (fun a b hab => ?_) (hsort.imp fun h => Nat.ne_of_lt h)
            have := (Prod.mk.injEq _ _ _ _ ▸ hab).2
            injection this) (by
            intro y hy
            obtain ⟨i, hi, rfl⟩ := List.mem_map.mp hy
            rw [hp3, List.length_append]
            exact Nat.lt_of_lt_of_le hlt (Nat.le_add_right _ _)) (by
            intro y hy
            obtain ⟨i, hi, rfl⟩ := List.mem_map.mp hy
            have := hcom i hi
            rw [hp2]
            refine OInv.fresh hs.inv hs.ord ?_
            simp only [Edge.round, TermMatch.child]
            omega) hm
        refine ⟨tr, new ++ new', htr, by rw [h1, hp3]; simp [PState.pop], ?_⟩
        rw [List.countP_append, hp4, h2]
        simp [waitsTerminal, hu]

/-! ## What calls count -/

/-- Counts up to a point. -/
def soFar (pg : ParseGrammar) (st : PState) (h : Nat) : Calls :=
  ⟨h, ((st.tree.arena.take h).map fun tr => (awaited pg tr).length).sum, st.tree.arena.countP (·.src.isSome), (st.tree.arena.take h).countP waitsTerminal, 0⟩

theorem Calls.plus_assoc (a b c : Calls) : (a.plus b).plus c = a.plus (b.plus c) := by
  simp [Calls.plus, Nat.add_assoc]

theorem soFar_step {pg : ParseGrammar} {st st' : PState} {h : Nat} {tr : Traversal} {new : List Traversal} (htr : st.tree.arena[h]? = some tr)
    (ha : st'.tree.arena = st.tree.arena ++ new) :
    soFar pg st' (h + 1) =
      (soFar pg st h).plus ⟨1, (awaited pg tr).length, new.countP (·.src.isSome), if waitsTerminal tr then 1 else 0, 0⟩ := by
  have hlt : h < st.tree.arena.length := (List.getElem?_eq_some_iff.mp htr).1
  have e : (st.tree.arena ++ new).take (h + 1) = st.tree.arena.take h ++ [tr] := by
    rw [List.take_append_of_le_length (by omega), List.take_add_one, htr]
    rfl
  simp only [soFar, Calls.plus, e, ha, List.map_append, List.sum_append, List.countP_append, List.map_cons, List.map_nil, List.sum_cons,
    List.sum_nil, List.countP_cons, List.countP_nil, Nat.add_zero, Nat.zero_add]

theorem earleyC_counts {g : Grammar} {S : Term} {input : Str} (fuel : Nat) : ∀ {st : PState} {h : Nat} {r : Option Nat} {st' : PState} {c : Calls},
    Sim g S input st h → earleyC (ParseGrammar.newUnchecked g) fuel st = .returned (r, st', c) →
    ∃ h', Sim g S input st' h' ∧
      ((r = none ∧ st'.queue.queue = [] ∧ (soFar (ParseGrammar.newUnchecked g) st h).plus c = (soFar (ParseGrammar.newUnchecked g) st' h').plus { rounds := 1 }) ∨
        ∃ id tr, r = some id ∧ st'.tree.arena[id]? = some tr ∧
          (soFar (ParseGrammar.newUnchecked g) st h).plus c = soFar (ParseGrammar.newUnchecked g) st' h') := by
  induction fuel with
  | zero => intro st h r st' c _ he; simp [earleyC] at he
  | succ fuel ih =>
    intro st h r st' c hs he
    simp only [earleyC] at he
    cases hq : st.queue.queue with
    | nil =>
      simp only [hq, Outcome.returned.injEq, Prod.mk.injEq] at he
      obtain ⟨rfl, rfl, rfl⟩ := he
      exact ⟨h, hs, .inl ⟨rfl, hq, rfl⟩⟩
    | cons id rest =>
      simp only [hq] at he
      cases hr : earleyRoundC (ParseGrammar.newUnchecked g) (st.pop rest) id with
      | none => simp only [PState.pop] at hr; simp [hr] at he
      | some r1 =>
        obtain ⟨st1, b, c1⟩ := r1
        have hr' : earleyRound (ParseGrammar.newUnchecked g) (st.pop rest) id = some (st1, b) := by
          rw [← earleyRoundC_eq, hr]; rfl
        obtain ⟨hs1, rfl, _⟩ := hs.step hq hr'
        obtain ⟨tr, new, htr, ha, hc⟩ := hs.round_counts hq hr
        have hsf := soFar_step (pg := ParseGrammar.newUnchecked g) htr ha
        rw [← hc] at hsf
        simp only [PState.pop] at hr
        cases b with
        | true =>
          simp only [hr, Outcome.returned.injEq, Prod.mk.injEq] at he
          obtain ⟨rfl, rfl, rfl⟩ := he
          refine ⟨id + 1, hs1, .inr ⟨id, tr, rfl, ?_, hsf.symm⟩⟩
          rw [ha]
          exact getElem?_append_mono htr
        | false =>
          simp only [hr] at he
          cases he2 : earleyC (ParseGrammar.newUnchecked g) fuel st1 with
          | outOfFuel => simp [he2] at he
          | panic => simp [he2] at he
          | returned r2 =>
            obtain ⟨r2, st2, c2⟩ := r2
            simp only [he2, Outcome.returned.injEq, Prod.mk.injEq] at he
            obtain ⟨rfl, rfl, rfl⟩ := he
            obtain ⟨h', hs', hh⟩ := ih hs1 he2
            rw [hsf, Calls.plus_assoc] at hh
            exact ⟨h', hs', hh⟩

theorem nextC_counts {g : Grammar} {S : Term} {input : Str} {it it' : ParseTreeIter} {h fuel : Nat} {r : Option ParseTree} {c : Calls}
    (hpg : it.parser.parseGrammar = ParseGrammar.newUnchecked g) (hs : Sim g S input it.st h) (he : it.nextC fuel = .returned (r, it', c)) :
    it'.parser.parseGrammar = ParseGrammar.newUnchecked g ∧ ∃ h', Sim g S input it'.st h' ∧
      ((r = none ∧ it'.st.queue.queue = [] ∧
        (soFar (ParseGrammar.newUnchecked g) it.st h).plus c = (soFar (ParseGrammar.newUnchecked g) it'.st h').plus { rounds := 1 }) ∨
        ∃ t, r = some t ∧ (soFar (ParseGrammar.newUnchecked g) it.st h).plus c =
          (soFar (ParseGrammar.newUnchecked g) it'.st h').plus { gets := treeReading t }) := by
  unfold ParseTreeIter.nextC at he
  rw [hpg] at he
  cases h1 : earleyC (ParseGrammar.newUnchecked g) fuel it.st with
  | outOfFuel => simp [h1] at he
  | panic => simp [h1] at he
  | returned r1 =>
    obtain ⟨r1, st, c1⟩ := r1
    obtain ⟨h', hs', hh⟩ := earleyC_counts fuel hs h1
    rcases hh with ⟨rfl, hq, hc⟩ | ⟨id, tr, rfl, hid, hc⟩
    · simp only [h1, Outcome.returned.injEq, Prod.mk.injEq] at he
      obtain ⟨rfl, rfl, rfl⟩ := he
      exact ⟨hpg, h', hs', .inl ⟨rfl, hq, hc⟩⟩
    · obtain ⟨_, ks, _, _, _, hd, _⟩ := entry_expected hs'.inv.s id tr hid
      have hlt : id < st.tree.arena.length := (List.getElem?_eq_some_iff.mp hid).1
      simp only [h1, parseTreeC_den hs'.inv.s (st.tree.arena.length + 1) hid hd (by omega), Outcome.returned.injEq, Prod.mk.injEq] at he
      obtain ⟨rfl, rfl, rfl⟩ := he
      exact ⟨hpg, h', hs', .inr ⟨_, rfl, by rw [← Calls.plus_assoc, hc]⟩⟩

theorem drainsWith_counts {g : Grammar} {S : Term} {input : Str} {it it' : ParseTreeIter} {h : Nat} {ts : List ParseTree} {c : Calls}
    (hpg : it.parser.parseGrammar = ParseGrammar.newUnchecked g) (hs : Sim g S input it.st h) (hd : DrainsWith it ts c it') :
    it'.st.queue.queue = [] ∧ ∃ h', Sim g S input it'.st h' ∧ (soFar (ParseGrammar.newUnchecked g) it.st h).plus c =
      (soFar (ParseGrammar.newUnchecked g) it'.st h').plus { rounds := 1, gets := (ts.map treeReading).sum } := by
  induction hd generalizing h with
  | done he =>
    obtain ⟨_, h', hs', ⟨_, hq, hc⟩ | ⟨t, ht, _⟩⟩ := nextC_counts hpg hs he
    · exact ⟨hq, h', hs', hc⟩
    · cases ht
  | step he _ ih =>
    obtain ⟨hpg', h1, hs1, ⟨ht, _⟩ | ⟨t, ht, hc⟩⟩ := nextC_counts hpg hs he
    · cases ht
    · injection ht with ht
      subst ht
      obtain ⟨hq, h', hs', hc'⟩ := ih hpg' hs1
      refine ⟨hq, h', hs', ?_⟩
      rw [← Calls.plus_assoc, hc]
      simp only [Calls.plus, Calls.mk.injEq, List.map_cons, List.sum_cons] at hc' ⊢
      omega

/-- Everything that draining a fresh iterator counts, in terms of its tree. -/
theorem drained_counts {g : Grammar} {S : Term} {input : Str} {it it' : ParseTreeIter} {ts : List ParseTree} {c : Calls}
    (ho : Opened g S input it) (hd : DrainsWith it ts c it') :
    Inv (ParseGrammar.newUnchecked g) input S it'.st ∧ it'.st.queue.queue = [] ∧
      c = ⟨it'.st.tree.arena.length + 1, (it'.st.tree.arena.map fun tr => (awaited (ParseGrammar.newUnchecked g) tr).length).sum,
        it'.st.tree.arena.countP (·.src.isSome), it'.st.tree.arena.countP waitsTerminal, (ts.map treeReading).sum⟩ := by
  have hs := opened_sim ho
  obtain ⟨hq, h', hs', hc⟩ := drainsWith_counts ho.inv.1.pg hs hd
  have hh : h' = it'.st.tree.arena.length := by
    have h1 := hs'.ord.basic.queue
    have h2 := hs'.ord.basic.hle
    rw [hq] at h1
    have := congrArg List.length h1
    simp at this
    omega
  have h0 : it.st.tree.arena.countP (·.src.isSome) = 0 := by
    rw [List.countP_eq_zero]
    intro tr htr hsome
    obtain ⟨k, hk⟩ := List.mem_iff_getElem?.mp htr
    obtain ⟨e, he⟩ := Option.isSome_iff_exists.mp hsome
    have := hs.ord.past k tr e hk he
    omega
  refine ⟨hs'.inv, hq, ?_⟩
  subst hh
  cases c
  simp only [soFar, Calls.plus, Calls.mk.injEq, List.take_zero, List.map_nil, List.sum_nil, List.countP_nil, List.take_length, h0] at hc ⊢
  omega

/-! ## Counting partial derivations -/

theorem itemOf_entry {g S input st} (h : Inv (ParseGrammar.newUnchecked g) input S st) {k : Nat} {x : Begun} (hx : ItemOf g input st k x) :
    ∃ tr, st.tree.arena[k]? = some tr ∧ (∀ T, x.Waits T ↔ tr.unmatched.head? = some T) ∧ (x.forest ≠ [] ↔ tr.src.isSome = true) := by
  obtain ⟨tr, ks, r, p, h1, h2, h3, ⟨done, h4⟩, h5, h6, h7, h8, h9⟩ := hx
  refine ⟨tr, h1, fun T => ?_, ?_⟩
  · obtain ⟨u, ks', done', r', p', hd, hp, hts, hv, _⟩ := entry_expected h.s k tr h1
    have := h2.fun hd
    subst this
    rw [h3] at hp; injection hp with hp; subst hp
    have hl : x.forest.length = done'.length := by
      rw [h9, ← forest_length hv.forest]
    constructor
    · rintro ⟨pre, post, e1, e2⟩
      rw [h8, hts] at e1
      rw [(List.append_inj e1 (by omega)).2]
      rfl
    · intro hT
      cases hu : tr.unmatched with
      | nil => simp [hu] at hT
      | cons T' ts =>
        simp only [hu, List.head?_cons, Option.some.injEq] at hT
        subst hT
        exact ⟨done', ts, by rw [h8, hts, hu], hl.symm⟩
  · rw [h9, erase_eq_map]
    cases h2 with
    | root hk hs => rw [h1] at hk; injection hk with hk; subst hk; simp [hs]
    | leaf hk hs _ => rw [h1] at hk; injection hk with hk; subst hk; simp [hs]
    | node hk hs _ _ _ => rw [h1] at hk; injection hk with hk; subst hk; simp [hs]

theorem countP_card {α : Type} (P : α → Bool) (l : List α) : l.countP P = (Finset.univ.filter fun k : Fin l.length => P l[k] = true).card := by
  induction l with
  | nil => rfl
  | cons a l ih =>
    rw [List.countP_cons, ih]
    have := Fin.card_filter_univ_succ (fun k : Fin (l.length + 1) => P (a :: l)[k] = true)
    simp only [List.length_cons] at *
    rw [this]
    simp only [Fin.getElem_fin, Fin.val_zero, List.getElem_cons_zero, Fin.val_succ, List.getElem_cons_succ]
    split <;> omega

/-- Entries of a kind are as many as partial derivations of the corresponding kind. -/
theorem countP_viable {g S input st} (hn : g.flatProds.Nodup) (h : Inv (ParseGrammar.newUnchecked g) input S st) (hq : st.queue.queue = [])
    (P : Traversal → Bool) (Q : Begun → Prop)
    (hPQ : ∀ (k : Nat) tr x, st.tree.arena[k]? = some tr → ItemOf g input st k x → (P tr = true ↔ Q x)) :
    {x | Viable g S input x ∧ Q x}.Finite ∧ st.tree.arena.countP P = {x | Viable g S input x ∧ Q x}.ncard := by
  classical
  choose f hf1 hf2 using fun k : Fin st.tree.arena.length => itemOf_exists h k.2
  have hinj : Function.Injective f := fun a b hab => by
    have h1 := hf1 a
    rw [hab] at h1
    exact Fin.ext (itemOf_inj hn h h1 (hf1 b))
  have hset : {x | Viable g S input x ∧ Q x} = f '' {k | P st.tree.arena[k] = true} := by
    ext x
    constructor
    · rintro ⟨hx, hQ⟩
      obtain ⟨k, hk, hik⟩ := itemOf_complete h hq hx
      have := itemOf_fun (hf1 ⟨k, hk⟩) hik
      refine ⟨⟨k, hk⟩, ?_, this⟩
      exact (hPQ k _ x (List.getElem?_eq_getElem hk) hik).mpr hQ
    · rintro ⟨k, hk, rfl⟩
      exact ⟨hf2 k, (hPQ k _ _ (List.getElem?_eq_getElem k.2) (hf1 k)).mp hk⟩
  rw [hset]
  refine ⟨Set.toFinite _, ?_⟩
  rw [Set.ncard_image_of_injective _ hinj, countP_card, ← Set.ncard_coe_finset]
  congr 1
  ext k
  simp

/-- Pairs of a partial derivation and an alternative of what it waits for. -/
theorem awaited_viable {g S input st} (hn : g.flatProds.Nodup) (h : Inv (ParseGrammar.newUnchecked g) input S st) (hq : st.queue.queue = []) :
    {y : Begun × Expression | Viable g S input y.1 ∧ ∃ n, y.1.Waits (.nonterminal n) ∧ HasAlt g (.nonterminal n) y.2}.Finite ∧
    (st.tree.arena.map fun tr => (awaited (ParseGrammar.newUnchecked g) tr).length).sum =
      {y : Begun × Expression | Viable g S input y.1 ∧ ∃ n, y.1.Waits (.nonterminal n) ∧ HasAlt g (.nonterminal n) y.2}.ncard := by
  classical
  choose f hf1 hf2 using fun k : Fin st.tree.arena.length => itemOf_exists h k.2
  have hinj : Function.Injective f := fun a b hab => by
    have h1 := hf1 a
    rw [hab] at h1
    exact Fin.ext (itemOf_inj hn h h1 (hf1 b))
  let A : Fin st.tree.arena.length → List Expression := fun k => (awaited (ParseGrammar.newUnchecked g) st.tree.arena[k]).map (·.rhs)
  have hA : ∀ k e, e ∈ A k ↔ ∃ n, (f k).Waits (.nonterminal n) ∧ HasAlt g (.nonterminal n) e := by
    intro k e
    obtain ⟨tr, htr, hw, _⟩ := itemOf_entry h (hf1 k)
    have hk : st.tree.arena[k] = tr := by
      have := List.getElem?_eq_getElem k.2
      rw [htr] at this
      exact (Option.some.inj this).symm
    simp only [A, hk, hw]
    unfold awaited
    cases hu : tr.unmatched with
    | nil => simp
    | cons T ts =>
      cases T with
      | terminal s => simp
      | nonterminal n =>
        simp only [List.head?_cons, Option.some.injEq, Term.nonterminal.injEq, exists_eq_left', List.mem_map, List.mem_filter, decide_eq_true_eq]
        rw [← mem_flatProds, ← newUnchecked_productions]
        simp only [List.mem_map, Prod.mk.injEq]
        constructor
        · rintro ⟨p, ⟨h1, h2⟩, h3⟩; exact ⟨p, h1, h2, h3⟩
        · rintro ⟨p, h1, h2, h3⟩; exact ⟨p, ⟨h1, h2⟩, h3⟩
  have hAn : ∀ k, (A k).Nodup := by
    intro k
    simp only [A]
    unfold awaited
    cases hu : st.tree.arena[k].unmatched with
    | nil => simp
    | cons T ts =>
      cases T with
      | terminal s => simp
      | nonterminal n =>
        simp only
        rw [← newUnchecked_productions] at hn
        have h1 := (List.Nodup.of_map _ hn).filter (fun p => decide (p.lhs = .nonterminal n))
        refine (List.nodup_map_iff_inj_on h1).mpr ?_
        intro a ha b hb hab
        obtain ⟨ha1, ha2⟩ := List.mem_filter.mp ha
        obtain ⟨hb1, hb2⟩ := List.mem_filter.mp hb
        exact List.inj_on_of_nodup_map hn ha1 hb1 (by simp only [decide_eq_true_eq] at ha2 hb2; rw [ha2, hb2, hab])
  let D : Finset (Σ _ : Fin st.tree.arena.length, Expression) := Finset.univ.sigma fun k => (A k).toFinset
  let F : (Σ _ : Fin st.tree.arena.length, Expression) → Begun × Expression := fun y => (f y.1, y.2)
  have hF : Function.Injective F := by
    rintro ⟨a, e⟩ ⟨b, e'⟩ hab
    simp only [F, Prod.mk.injEq] at hab
    obtain ⟨h1, rfl⟩ := hab
    rw [hinj h1]
  have hset : {y : Begun × Expression | Viable g S input y.1 ∧ ∃ n, y.1.Waits (.nonterminal n) ∧ HasAlt g (.nonterminal n) y.2} = F '' (D : Set _) := by
    ext ⟨x, e⟩
    constructor
    · rintro ⟨hx, hQ⟩
      obtain ⟨k, hk, hik⟩ := itemOf_complete h hq hx
      have := itemOf_fun (hf1 ⟨k, hk⟩) hik
      refine ⟨⟨⟨k, hk⟩, e⟩, ?_, by simp [F, this]⟩
      simp only [D, Finset.mem_coe, Finset.mem_sigma, Finset.mem_univ, true_and, List.mem_toFinset]
      rw [hA, this]
      exact hQ
    · rintro ⟨⟨k, e'⟩, hk, he⟩
      simp only [F, Prod.mk.injEq] at he
      obtain ⟨rfl, rfl⟩ := he
      simp only [D, Finset.mem_coe, Finset.mem_sigma, Finset.mem_univ, true_and, List.mem_toFinset, hA] at hk
      exact ⟨hf2 k, hk⟩
  rw [hset]
  refine ⟨Set.toFinite _, ?_⟩
  rw [Set.ncard_image_of_injective _ hF, Set.ncard_coe_finset, Finset.card_sigma]
  have : ∀ k, (A k).toFinset.card = (awaited (ParseGrammar.newUnchecked g) st.tree.arena[k]).length := fun k => by
    rw [List.toFinset_card_of_nodup (hAn k)]; simp [A]
  simp only [this]
  rw [← List.sum_ofFn]
  congr 1
  refine List.ext_getElem (by simp) fun i h1 h2 => by simp

end Bnf
