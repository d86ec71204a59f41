import Verif.Proofs.EarleyInv

/-! One round of the Earley loop keeps the invariant and does not panic. -/

set_option autoImplicit false

namespace Bnf

/-- Ids already taken from the queue. -/
def Popped (st : PState) (k : Nat) : Prop := k < st.tree.arena.length ∧ k ∉ st.queue.queue

theorem mem_sortedVecInsert {l : List Nat} {a b : Nat} : b ∈ sortedVecInsert l a ↔ b = a ∨ b ∈ l := by
  induction l with
  | nil => simp [sortedVecInsert]
  | cons x xs ih =>
    unfold sortedVecInsert
    split
    · rename_i h; subst h; simp
    · split
      · simp
      · simp [ih]; constructor <;> (rintro (h | h | h) <;> simp [h])

theorem sortedVecInsert_sorted {l : List Nat} {a : Nat} (h : l.Pairwise (· < ·)) :
    (sortedVecInsert l a).Pairwise (· < ·) := by
  induction l with
  | nil => simp [sortedVecInsert]
  | cons x xs ih =>
    have hx := List.pairwise_cons.mp h
    unfold sortedVecInsert
    split
    · exact h
    · rename_i hne
      split
      · rename_i hlt
        refine List.pairwise_cons.mpr ⟨?_, h⟩
        intro y hy
        rcases List.mem_cons.mp hy with rfl | hy
        · exact hlt
        · exact Nat.lt_trans hlt (hx.1 y hy)
      · rename_i hlt
        refine List.pairwise_cons.mpr ⟨?_, ih hx.2⟩
        intro y hy
        rcases mem_sortedVecInsert.mp hy with rfl | hy
        · omega
        · exact hx.1 y hy

/-- The completion index lists exactly the popped waiting and completed entries. -/
structure CInv (pg : ParseGrammar) (a : List Traversal) (c : CompletionMap) (P : Nat → Prop) : Prop where
  incS : ∀ key, ((c.incomplete.get key).getD []).Pairwise (· < ·)
  comS : ∀ key, ((c.complete.get key).getD []).Pairwise (· < ·)
  inc : ∀ T i k, k ∈ (c.incomplete.get (T, i)).getD [] ↔ P k ∧ ∃ t n rest, a[k]? = some t ∧
    t.unmatched = .nonterminal n :: rest ∧ T = .nonterminal n ∧ t.total = i
  com : ∀ T i k, k ∈ (c.complete.get (T, i)).getD [] ↔ P k ∧ ∃ t p, a[k]? = some t ∧ t.unmatched = [] ∧
    pg.productions[t.prodId]? = some p ∧ p.lhs = T ∧ t.range.start = i

theorem getElem?_append_lt {α : Type} {a new : List α} {k : Nat} (h : k < a.length) : (a ++ new)[k]? = a[k]? :=
  List.getElem?_append_left h

theorem CInv.mono {pg a c P} (new : List Traversal) (h : CInv pg a c P) (hP : ∀ k, P k → k < a.length) :
    CInv pg (a ++ new) c P := by
  refine ⟨h.incS, h.comS, ?_, ?_⟩
  · intro T i k
    rw [h.inc]
    constructor
    · rintro ⟨hp, h'⟩; rw [← getElem?_append_lt (hP k hp) (new := new)] at h'; exact ⟨hp, h'⟩
    · rintro ⟨hp, h'⟩; rw [getElem?_append_lt (hP k hp)] at h'; exact ⟨hp, h'⟩
  · intro T i k
    rw [h.com]
    constructor
    · rintro ⟨hp, h'⟩; rw [← getElem?_append_lt (hP k hp) (new := new)] at h'; exact ⟨hp, h'⟩
    · rintro ⟨hp, h'⟩; rw [getElem?_append_lt (hP k hp)] at h'; exact ⟨hp, h'⟩

theorem CInv.congr {pg a c P P'} (h : CInv pg a c P) (hP : ∀ k, P k ↔ P' k) : CInv pg a c P' := by
  have : P = P' := funext fun k => propext (hP k)
  rw [← this]; exact h

theorem CInv.insert {pg a c P} (h : CInv pg a c P) {id : Nat} {t : Traversal} {p : FlatProd}
    (ht : a[id]? = some t) (hid : t.id = id) (hp : pg.productions[t.prodId]? = some p) :
    CInv pg a (c.insert t p.lhs) (fun k => P k ∨ k = id) := by
  unfold CompletionMap.insert Traversal.nextUnmatched
  cases hu : t.unmatched with
  | nil =>
    simp only [List.head?_nil]
    refine ⟨h.incS, ?_, ?_, ?_⟩
    · intro key
      simp only [AMap.get_set]
      split
      · exact sortedVecInsert_sorted (h.comS _)
      · exact h.comS _
    · intro T i k
      rw [h.inc]
      constructor
      · rintro ⟨hp, h'⟩; exact ⟨Or.inl hp, h'⟩
      · rintro ⟨hp | rfl, h'⟩
        · exact ⟨hp, h'⟩
        · obtain ⟨t', n, rest, h1, h2, _⟩ := h'
          rw [ht] at h1; injection h1 with h1; subst h1
          rw [hu] at h2; cases h2
    · intro T i k
      simp only [AMap.get_set]
      split
      · rename_i heq
        injection heq with e1 e2
        subst e1 e2
        simp only [Option.getD_some, mem_sortedVecInsert, h.com, hid]
        constructor
        · rintro (rfl | ⟨h1, h2⟩)
          · exact ⟨Or.inr rfl, t, p, ht, hu, hp, rfl, rfl⟩
          · exact ⟨Or.inl h1, h2⟩
        · rintro ⟨h1 | h1, h2⟩
          · exact Or.inr ⟨h1, h2⟩
          · exact Or.inl h1
      · rename_i hne
        rw [h.com]
        constructor
        · rintro ⟨hp, h'⟩; exact ⟨Or.inl hp, h'⟩
        · rintro ⟨hp' | rfl, h'⟩
          · exact ⟨hp', h'⟩
          · obtain ⟨t', p', h1, h2, h3, h4, h5⟩ := h'
            rw [ht] at h1; injection h1 with h1; subst h1
            rw [hp] at h3; injection h3 with h3; subst h3
            exact absurd (Prod.ext h4 h5) hne
  | cons T rest =>
    cases T with
    | terminal s =>
      simp only [List.head?_cons]
      refine ⟨h.incS, h.comS, ?_, ?_⟩
      · intro T i k
        rw [h.inc]
        constructor
        · rintro ⟨hp, h'⟩; exact ⟨Or.inl hp, h'⟩
        · rintro ⟨hp | rfl, h'⟩
          · exact ⟨hp, h'⟩
          · obtain ⟨t', n, rest, h1, h2, _⟩ := h'
            rw [ht] at h1; injection h1 with h1; subst h1
            rw [hu] at h2; cases h2
      · intro T i k
        rw [h.com]
        constructor
        · rintro ⟨hp, h'⟩; exact ⟨Or.inl hp, h'⟩
        · rintro ⟨hp | rfl, h'⟩
          · exact ⟨hp, h'⟩
          · obtain ⟨t', p', h1, h2, _⟩ := h'
            rw [ht] at h1; injection h1 with h1; subst h1
            rw [hu] at h2; cases h2
    | nonterminal n =>
      simp only [List.head?_cons]
      refine ⟨?_, h.comS, ?_, ?_⟩
      · intro key
        simp only [AMap.get_set]
        split
        · exact sortedVecInsert_sorted (h.incS _)
        · exact h.incS _
      · intro T i k
        simp only [AMap.get_set]
        split
        · rename_i heq
          injection heq with e1 e2
          subst e1 e2
          simp only [Option.getD_some, mem_sortedVecInsert, h.inc, hid]
          constructor
          · rintro (rfl | ⟨h1, h2⟩)
            · exact ⟨Or.inr rfl, t, n, rest, ht, hu, rfl, rfl⟩
            · exact ⟨Or.inl h1, h2⟩
          · rintro ⟨h1 | h1, h2⟩
            · exact Or.inr ⟨h1, h2⟩
            · exact Or.inl h1
        · rename_i hne
          rw [h.inc]
          constructor
          · rintro ⟨hp, h'⟩; exact ⟨Or.inl hp, h'⟩
          · rintro ⟨hp' | rfl, h'⟩
            · exact ⟨hp', h'⟩
            · obtain ⟨t', n', rest', h1, h2, h4, h5⟩ := h'
              rw [ht] at h1; injection h1 with h1; subst h1
              rw [hu] at h2; injection h2 with h2 _; injection h2 with h2; subst h2
              exact absurd (Prod.ext h4.symm h5) hne
      · intro T i k
        rw [h.com]
        constructor
        · rintro ⟨hp, h'⟩; exact ⟨Or.inl hp, h'⟩
        · rintro ⟨hp | rfl, h'⟩
          · exact ⟨hp, h'⟩
          · obtain ⟨t', p', h1, h2, _⟩ := h'
            rw [ht] at h1; injection h1 with h1; subst h1
            rw [hu] at h2; cases h2

/-- Closure: processed entries have been scanned, predicted and completed. -/
structure KInv (pg : ParseGrammar) (input : Str) (t : TravTree) (P : Nat → Prop) : Prop where
  scan : ∀ (k : Nat) tr s rest r, P k → t.arena[k]? = some tr → tr.unmatched = .terminal s :: rest →
    getFrom input tr.total = some (s ++ r) → ∃ k', t.edges.get ⟨.terminal s, k⟩ = some k'
  pred : ∀ (k : Nat) tr n rest (i : Nat) p, P k → t.arena[k]? = some tr → tr.unmatched = .nonterminal n :: rest →
    pg.productions[i]? = some p → p.lhs = .nonterminal n → ∃ k', t.roots.get (i, tr.total) = some k'
  compl : ∀ (k : Nat) tr n rest (c : Nat) tc pc, P k → t.arena[k]? = some tr → tr.unmatched = .nonterminal n :: rest →
    P c → t.arena[c]? = some tc → tc.unmatched = [] → pg.productions[tc.prodId]? = some pc →
    pc.lhs = .nonterminal n → tc.range.start = tr.total → ∃ k', t.edges.get ⟨.nonterminal c, k⟩ = some k'

/-- The complete state invariant. -/
structure Inv (pg : ParseGrammar) (input : Str) (S : Term) (st : PState) : Prop where
  s : SInv pg input S st.tree st.queue
  startRoots : ∀ (i : Nat) p, pg.productions[i]? = some p → p.lhs = S → ∃ k, st.tree.roots.get (i, 0) = some k
  c : CInv pg st.tree.arena st.completions (Popped st)
  k : KInv pg input st.tree (Popped st)

/-- A popped entry that makes the loop return. -/
def Full (pg : ParseGrammar) (input : Str) (S : Term) (st : PState) (id : Nat) : Prop :=
  ∃ t p, st.tree.arena[id]? = some t ∧ t.unmatched = [] ∧ pg.productions[t.prodId]? = some p ∧ p.lhs = S ∧
    t.range.start = 0 ∧ t.range.len = byteLen input

/-- The state with the first queue element removed. -/
def PState.pop (st : PState) (rest : List Nat) : PState := { st with queue := { st.queue with queue := rest } }

theorem Ext.popped {st st' : PState} (he : Ext st.tree st.queue st'.tree st'.queue) (k : Nat) :
    Popped st' k ↔ Popped st k := by
  obtain ⟨ids, hq, hids⟩ := he.queue
  have := he.len_le
  unfold Popped
  rw [hq, List.mem_append, hids]
  constructor
  · rintro ⟨h1, h2⟩
    refine ⟨?_, fun h => h2 (Or.inl h)⟩
    by_contra hlt
    exact h2 (Or.inr ⟨by omega, h1⟩)
  · rintro ⟨h1, h2⟩
    refine ⟨by omega, ?_⟩
    rintro (h | ⟨h, _⟩)
    · exact h2 h
    · omega

theorem popped_pop {pg input S} {st : PState} (h : SInv pg input S st.tree st.queue) {id rest}
    (hq : st.queue.queue = id :: rest) (k : Nat) : Popped (st.pop rest) k ↔ Popped st k ∨ k = id := by
  have hn := h.qnodup
  rw [hq] at hn
  have hn' := List.nodup_cons.mp hn
  have hlt := h.qlt id (by rw [hq]; simp)
  unfold Popped PState.pop
  simp only [hq, List.mem_cons, not_or]
  constructor
  · rintro ⟨h1, h2⟩
    by_cases hk : k = id
    · exact Or.inr hk
    · exact Or.inl ⟨h1, hk, h2⟩
  · rintro (⟨h1, h2, h3⟩ | rfl)
    · exact ⟨h1, h3⟩
    · exact ⟨hlt, hn'.1⟩

theorem SInv.pop {pg input S} {st : PState} (h : SInv pg input S st.tree st.queue) {id rest}
    (hq : st.queue.queue = id :: rest) : SInv pg input S (st.pop rest).tree (st.pop rest).queue := by
  have hn := h.qnodup
  rw [hq] at hn
  have hn' := List.nodup_cons.mp hn
  refine ⟨h.entries, h.roots, h.edges, h.proc, hn'.2, ?_, h.starting, h.origin⟩
  intro k hk
  exact h.qlt k (by rw [hq]; exact List.mem_cons_of_mem _ hk)

/-- The popped-set does not contain anything outside the arena. -/
theorem Popped.lt {st : PState} {k : Nat} (h : Popped st k) : k < st.tree.arena.length := h.1

/-- Assemble the invariant after a round. -/
theorem Inv.after {pg input S} {st : PState} (h : Inv pg input S st) {id rest}
    (hq : st.queue.queue = id :: rest) {tr : Traversal} {p : FlatProd} (htr : st.tree.arena[id]? = some tr)
    (_hp : pg.productions[tr.prodId]? = some p) {t' q' c'}
    (hc : CInv pg st.tree.arena c' (fun k => Popped st k ∨ k = id))
    (hs : SInv pg input S t' q') (he : Ext (st.pop rest).tree (st.pop rest).queue t' q')
    (hscan : ∀ s ts r, tr.unmatched = .terminal s :: ts → getFrom input tr.total = some (s ++ r) →
      ∃ k', t'.edges.get ⟨.terminal s, id⟩ = some k')
    (hpred : ∀ n ts i p, tr.unmatched = .nonterminal n :: ts → pg.productions[i]? = some p →
      p.lhs = .nonterminal n → ∃ k', t'.roots.get (i, tr.total) = some k')
    (hcom1 : ∀ n ts c, tr.unmatched = .nonterminal n :: ts →
      c ∈ (c'.complete.get (.nonterminal n, tr.total)).getD [] →
      ∃ k', t'.edges.get ⟨.nonterminal c, id⟩ = some k')
    (hcom2 : tr.unmatched = [] → ∀ p, pg.productions[tr.prodId]? = some p →
      ∀ k ∈ (c'.incomplete.get (p.lhs, tr.range.start)).getD [],
      ∃ k', t'.edges.get ⟨.nonterminal id, k⟩ = some k') :
    Inv pg input S ⟨t', q', c'⟩ ∧ (∀ k, Popped ⟨t', q', c'⟩ k ↔ Popped st k ∨ k = id) := by
  have hs0 := h.s.pop hq
  have hP : ∀ k, Popped ⟨t', q', c'⟩ k ↔ Popped st k ∨ k = id := by
    intro k
    rw [← popped_pop h.s hq]
    exact Ext.popped (st := st.pop rest) (st' := ⟨t', q', c'⟩) he k
  have hPlt : ∀ k, (Popped st k ∨ k = id) → k < st.tree.arena.length := by
    rintro k (hk | rfl)
    · exact hk.1
    · exact (List.getElem?_eq_some_iff.mp htr).1
  have hold : ∀ {k x}, (Popped st k ∨ k = id) → t'.arena[k]? = some x → st.tree.arena[k]? = some x := by
    intro k x hk hx
    obtain ⟨new, hn⟩ := he.arena
    rw [hn] at hx
    simp only [PState.pop] at hx
    rw [getElem?_append_lt (hPlt k hk)] at hx
    exact hx
  refine ⟨⟨hs, ?_, ?_, ?_⟩, hP⟩
  · intro i p hi hl
    obtain ⟨k, hk⟩ := h.startRoots i p hi hl
    exact ⟨k, hs0.roots_mono hs he hk⟩
  · obtain ⟨new, hn⟩ := he.arena
    simp only [hn]
    exact (hc.mono new hPlt).congr fun k => (hP k).symm
  · constructor
    · intro k x s ts r hk hx hu hf
      rw [hP] at hk
      have hx' := hold hk hx
      rcases hk with hk | rfl
      · obtain ⟨k', hk'⟩ := h.k.scan k x s ts r hk hx' hu hf
        exact ⟨k', hs0.edges_mono hs he hk'⟩
      · rw [htr] at hx'; injection hx' with hx'; subst hx'
        exact hscan s ts r hu hf
    · intro k x n ts i p hk hx hu hi hl
      rw [hP] at hk
      have hx' := hold hk hx
      rcases hk with hk | rfl
      · obtain ⟨k', hk'⟩ := h.k.pred k x n ts i p hk hx' hu hi hl
        exact ⟨k', hs0.roots_mono hs he hk'⟩
      · rw [htr] at hx'; injection hx' with hx'; subst hx'
        exact hpred n ts i p hu hi hl
    · intro k x n ts c tc pc hk hx hu hc' htc hcu hpc hl hst
      rw [hP] at hk hc'
      have hx' := hold hk hx
      have htc' := hold hc' htc
      rcases hk with hk | rfl
      · rcases hc' with hc' | rfl
        · obtain ⟨k', hk'⟩ := h.k.compl k x n ts c tc pc hk hx' hu hc' htc' hcu hpc hl hst
          exact ⟨k', hs0.edges_mono hs he hk'⟩
        · rw [htr] at htc'; injection htc' with htc'; subst htc'
          refine hcom2 hcu pc hpc k ?_
          rw [hc.inc]
          exact ⟨Or.inl hk, x, n, ts, hx', hu, hl, hst.symm⟩
      · rw [htr] at hx'; injection hx' with hx'; subst hx'
        refine hcom1 n ts c hu ?_
        rw [hc.com]
        exact ⟨hc', tc, pc, htc', hcu, hpc, hl, hst⟩

/-- A round does not panic, keeps the invariant and pops exactly `id`; its flag tells fullness. -/
theorem Inv.round {pg input S} (hpg : PGOk pg) {st : PState} (h : Inv pg input S st) {id rest}
    (hq : st.queue.queue = id :: rest) :
    ∃ st' b, earleyRound pg (st.pop rest) id = some (st', b) ∧ Inv pg input S st' ∧
      Ext (st.pop rest).tree (st.pop rest).queue st'.tree st'.queue ∧
      (∀ k, Popped st' k ↔ Popped st k ∨ k = id) ∧ (b = true ↔ Full pg input S st id) := by
  have hlt := h.s.qlt id (by rw [hq]; simp)
  have hs0 := h.s.pop hq
  obtain ⟨tr, htr⟩ : ∃ tr, st.tree.arena[id]? = some tr := ⟨_, List.getElem?_eq_getElem hlt⟩
  have hok := h.s.entries id tr htr
  obtain ⟨p, hp⟩ := hok.prod
  have hget : (st.pop rest).tree.get id = some tr := htr
  have hpid : pg.prodById tr.prodId = some p := hp
  have hcins := h.c.insert htr hok.id_eq hp
  obtain ⟨r0, hr0⟩ := h.s.total_ok htr
  unfold earleyRound
  rw [hget]
  simp only [Traversal.nextUnmatched]
  cases hu : tr.unmatched with
  | nil =>
    simp only [List.head?_nil, hpid]
    have hm : ∀ x ∈ ((((st.pop rest).completions.insert tr p.lhs).getIncomplete p.lhs tr).map
        fun i => (i, TermMatch.nonterminal id)), ∃ tp len rst, (st.pop rest).tree.arena[x.1]? = some tp ∧
        Link pg input (st.pop rest).tree.arena tp x.2 len rst := by
      intro x hx
      obtain ⟨i, hi, rfl⟩ := List.mem_map.mp hx
      unfold CompletionMap.getIncomplete at hi
      simp only [PState.pop] at hi
      rw [hcins.inc] at hi
      obtain ⟨_, t, n, rst, ht, htu, hl, htot⟩ := hi
      exact ⟨t, _, rst, ht, .nonterminal htr hu hp hl htu htot.symm⟩
    obtain ⟨t', q', e1, hs', he, hed⟩ := matchAll_inv _ hs0 hm
    rw [e1]
    obtain ⟨hinv, hP⟩ := h.after hq htr hp hcins hs' he (by simp [hu]) (by simp [hu]) (by simp [hu]) (by
      intro _ p' hp' k hk
      rw [hp] at hp'; injection hp' with hp'; subst hp'
      exact hed (k, .nonterminal id) (List.mem_map.mpr ⟨k, hk, rfl⟩))
    refine ⟨_, _, rfl, hinv, he, hP, ?_⟩
    have hst := h.s.starting id tr p htr hp
    unfold InputRange.isComplete
    rw [hok.input_eq]
    simp only [Bool.and_eq_true, beq_iff_eq, hst]
    constructor
    · rintro ⟨⟨h1, h2⟩, _, h3⟩
      exact ⟨tr, p, htr, hu, hp, h2, h1, h3⟩
    · rintro ⟨tr', p', h1, h2, h3, h4, h5, h6⟩
      rw [htr] at h1; injection h1 with h1; subst h1
      rw [hp] at h3; injection h3 with h3; subst h3
      exact ⟨⟨h5, h4⟩, h5, h6⟩
  | cons T ts =>
    have hnf : ¬ Full pg input S st id := by
      rintro ⟨tr', p', h1, h2, _⟩
      rw [htr] at h1; injection h1 with h1; subst h1
      rw [hu] at h2; cases h2
    cases T with
    | terminal s =>
      simp only [List.head?_cons]
      have hcins' : CInv pg st.tree.arena st.completions (fun k => Popped st k ∨ k = id) := by
        have := hcins
        unfold CompletionMap.insert Traversal.nextUnmatched at this
        simp only [hu, List.head?_cons] at this
        exact this
      split
      · rename_i hsw
        obtain ⟨r, hr⟩ := startsWith_iff.mp hsw
        have hf : getFrom input tr.total = some (s ++ r) := by
          unfold InputRange.next at hr
          rw [hok.input_eq] at hr
          simp only [Traversal.total, InputRange.totalLen] at hr0 ⊢
          rw [hr0] at hr ⊢
          simp at hr
          rw [hr]
        obtain ⟨t', q', e1, hs', he, hed⟩ := matchAll_inv [(id, TermMatch.terminal s)] hs0 (by
          intro x hx
          simp at hx
          subst hx
          exact ⟨tr, _, ts, htr, .terminal hu hf⟩)
        rw [e1]
        obtain ⟨hinv, hP⟩ := h.after hq htr hp hcins' hs' he (by
          intro s' ts' r' hu' _
          rw [hu] at hu'; injection hu' with hu' _; injection hu' with hu'; subst hu'
          exact hed (id, .terminal s) (by simp)) (by simp [hu]) (by simp [hu]) (by simp [hu])
        refine ⟨_, _, rfl, hinv, he, hP, by simp [hnf]⟩
      · rename_i hsw
        obtain ⟨hinv, hP⟩ := h.after hq htr hp hcins' hs0 (Ext.refl _ _) (by
          intro s' ts' r' hu' hf'
          rw [hu] at hu'; injection hu' with hu' _; injection hu' with hu'; subst hu'
          refine absurd (startsWith_iff.mpr ⟨r', ?_⟩) hsw
          unfold InputRange.next
          rw [hok.input_eq]
          simp only [Traversal.total, InputRange.totalLen] at hf'
          rw [hf']; rfl) (by simp [hu]) (by simp [hu]) (by simp [hu])
        exact ⟨_, _, rfl, hinv, Ext.refl _ _, hP, by simp [hnf]⟩
    | nonterminal n =>
      simp only [List.head?_cons, hpid, hpg.prodsFor]
      obtain ⟨hs1, he1, hroots⟩ := predictAll_inv hpg (range := tr.range) (flag := false) hok.input_eq
        ⟨r0, hr0⟩ (pg.productions.filter (fun p => p.lhs = .nonterminal n)) hs0
        (fun p hp => (List.mem_filter.mp hp).1) (by
          intro p' hp' t'' q'' he'' hs'' hnone
          have hp'' := List.mem_filter.mp hp'
          simp at hp''
          obtain ⟨i, hi⟩ := List.mem_iff_getElem?.mp hp''.1
          constructor
          · intro hc; cases hc
          · rintro ⟨h0, hS⟩
            obtain ⟨k, hk⟩ := h.startRoots i p' hi hS
            have := hs0.roots_mono hs'' he'' hk
            rw [h0, hpg.id_eq i p' hi, this] at hnone
            cases hnone) (by
          intro p' hp'
          have hp'' := List.mem_filter.mp hp'
          simp at hp''
          exact .inr ⟨id, tr, n, ts, hlt, htr, hp''.2, hu, rfl⟩)
      have hm : ∀ x ∈ ((((st.pop rest).completions.insert tr p.lhs).getComplete (.nonterminal n) tr.range).map
          fun c => (id, TermMatch.nonterminal c)), ∃ tp len rst,
          (predictAll tr.range false (pg.productions.filter (fun p => p.lhs = .nonterminal n))
            (st.pop rest).tree (st.pop rest).queue).1.arena[x.1]? = some tp ∧
          Link pg input (predictAll tr.range false (pg.productions.filter (fun p => p.lhs = .nonterminal n))
            (st.pop rest).tree (st.pop rest).queue).1.arena tp x.2 len rst := by
        intro x hx
        obtain ⟨c, hc, rfl⟩ := List.mem_map.mp hx
        unfold CompletionMap.getComplete at hc
        simp only [PState.pop] at hc
        rw [hcins.com] at hc
        obtain ⟨_, t, pc, ht, htu, hpc, hl, htot⟩ := hc
        refine ⟨tr, _, ts, he1.get htr, .nonterminal (he1.get ht) htu hpc hl hu htot⟩
      obtain ⟨t', q', e1, hs', he2, hed⟩ := matchAll_inv _ hs1 hm
      rw [e1]
      obtain ⟨hinv, hP⟩ := h.after hq htr hp hcins hs' (he1.trans he2) (by simp [hu]) (by
        intro n' ts' i p' hu' hi hl
        rw [hu] at hu'; injection hu' with hu' _; injection hu' with hu'; subst hu'
        obtain ⟨k, hk⟩ := hroots p' (List.mem_filter.mpr ⟨List.mem_iff_getElem?.mpr ⟨i, hi⟩, by simp [hl]⟩)
        rw [hpg.id_eq i p' hi] at hk
        exact ⟨k, hs1.roots_mono hs' he2 hk⟩) (by
        intro n' ts' c hu' hc
        rw [hu] at hu'; injection hu' with hu' _; injection hu' with hu'; subst hu'
        exact hed (id, .nonterminal c) (List.mem_map.mpr ⟨c, hc, rfl⟩)) (by simp [hu])
      refine ⟨_, _, rfl, hinv, he1.trans he2, hP, by simp [hnf]⟩

/-- The initial state. -/
theorem Inv.init {pg : ParseGrammar} (hpg : PGOk pg) (input : Str) (S : Term) :
    Inv pg input S
      ⟨(predictAll (InputRange.new input) true (pg.productions.filter (fun p => p.lhs = S)) ⟨[], [], []⟩ ⟨[], []⟩).1,
       (predictAll (InputRange.new input) true (pg.productions.filter (fun p => p.lhs = S)) ⟨[], [], []⟩ ⟨[], []⟩).2,
       ⟨[], []⟩⟩ ∧
    ∀ k, ¬ Popped
      ⟨(predictAll (InputRange.new input) true (pg.productions.filter (fun p => p.lhs = S)) ⟨[], [], []⟩ ⟨[], []⟩).1,
       (predictAll (InputRange.new input) true (pg.productions.filter (fun p => p.lhs = S)) ⟨[], [], []⟩ ⟨[], []⟩).2,
       ⟨[], []⟩⟩ k := by
  have h0 : SInv pg input S ⟨[], [], []⟩ ⟨[], []⟩ := by
    constructor <;> simp [AMap.get]
  obtain ⟨hs, he, hr⟩ := predictAll_inv hpg (range := InputRange.new input) (flag := true) rfl
    ⟨input, by simp [InputRange.totalLen, InputRange.new]⟩ (pg.productions.filter (fun p => p.lhs = S)) h0
    (fun p hp => (List.mem_filter.mp hp).1) (by
      intro p hp _ _ _ _ _
      have := List.mem_filter.mp hp
      simp at this
      simp [InputRange.totalLen, InputRange.new, this.2]) (by
      intro p hp
      have := List.mem_filter.mp hp
      simp at this
      exact .inl ⟨rfl, this.2⟩)
  have hP : ∀ k, ¬ Popped
      ⟨(predictAll (InputRange.new input) true (pg.productions.filter (fun p => p.lhs = S)) ⟨[], [], []⟩ ⟨[], []⟩).1,
       (predictAll (InputRange.new input) true (pg.productions.filter (fun p => p.lhs = S)) ⟨[], [], []⟩ ⟨[], []⟩).2,
       ⟨[], []⟩⟩ k := by
    intro k hk
    rw [Ext.popped (st := ⟨⟨[], [], []⟩, ⟨[], []⟩, ⟨[], []⟩⟩) he k] at hk
    simp [Popped] at hk
  refine ⟨⟨hs, ?_, ?_, ?_⟩, hP⟩
  · intro i p hi hl
    obtain ⟨k, hk⟩ := hr p (List.mem_filter.mpr ⟨List.mem_iff_getElem?.mpr ⟨i, hi⟩, by simp [hl]⟩)
    rw [hpg.id_eq i p hi] at hk
    exact ⟨k, hk⟩
  · constructor
    · intro key; simp [AMap.get]
    · intro key; simp [AMap.get]
    · intro T i k
      simp only [AMap.get, Option.getD_none, List.not_mem_nil, false_iff, not_and]
      intro hk; exact absurd hk (hP k)
    · intro T i k
      simp only [AMap.get, Option.getD_none, List.not_mem_nil, false_iff, not_and]
      intro hk; exact absurd hk (hP k)
  · constructor
    · intro k _ _ _ _ hk; exact absurd hk (hP k)
    · intro k _ _ _ _ _ hk; exact absurd hk (hP k)
    · intro k _ _ _ _ _ _ hk; exact absurd hk (hP k)

end Bnf
