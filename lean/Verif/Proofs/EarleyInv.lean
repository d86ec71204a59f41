import Verif.Proofs.ParseGrammar

/-! Invariants of the Earley parser's traversal tree and queue. -/

set_option autoImplicit false

namespace Bnf

/-- Derivations annotated with production ids. -/
inductive DNode where
  | leaf (s : Str)
  | node (pid : Nat) (kids : List DNode)

mutual
def dnodeYield : DNode → Str
  | .leaf s => s
  | .node _ kids => dyield kids
def dyield : List DNode → Str
  | [] => []
  | d :: ds => dnodeYield d ++ dyield ds
end

/-- Valid annotated forests for a list of terms. -/
inductive VF (pg : ParseGrammar) : List Term → List DNode → Prop
  | nil : VF pg [] []
  | leaf {s : Str} {ts ks} : VF pg ts ks → VF pg (.terminal s :: ts) (.leaf s :: ks)
  | node {pid p n kids ts ks} : pg.productions[pid]? = some p → p.lhs = .nonterminal n →
      VF pg p.rhs.terms kids → VF pg ts ks → VF pg (.nonterminal n :: ts) (.node pid kids :: ks)

@[simp] theorem dyield_append (a b : List DNode) : dyield (a ++ b) = dyield a ++ dyield b := by
  induction a with
  | nil => simp [dyield]
  | cons x xs ih => simp [dyield, ih]

theorem VF.append {pg : ParseGrammar} {ts ts' ks ks'} (h : VF pg ts ks) (h' : VF pg ts' ks') :
    VF pg (ts ++ ts') (ks ++ ks') := by
  induction h with
  | nil => exact h'
  | leaf _ ih => exact VF.leaf ih
  | node h1 h2 h3 _ _ ih => exact VF.node h1 h2 h3 ih

def Traversal.total (t : Traversal) : Nat := t.range.totalLen

/-- `tp` may be extended by the match `m`, giving length `len` and unmatched terms `rest`. -/
inductive Link (pg : ParseGrammar) (input : Str) (a : List Traversal) (tp : Traversal) :
    TermMatch → Nat → List Term → Prop
  | terminal {s rest r} : tp.unmatched = .terminal s :: rest → getFrom input tp.total = some (s ++ r) →
      Link pg input a tp (.terminal s) (tp.range.len + byteLen s) rest
  | nonterminal {c tc pc n rest} : a[c]? = some tc → tc.unmatched = [] →
      pg.productions[tc.prodId]? = some pc → pc.lhs = .nonterminal n →
      tp.unmatched = .nonterminal n :: rest → tc.range.start = tp.total →
      Link pg input a tp (.nonterminal c) (tp.range.len + tc.range.len) rest

/-- The match refers to a traversal below `k`. -/
def TermMatch.below (m : TermMatch) (k : Nat) : Prop :=
  match m with
  | .terminal _ => True
  | .nonterminal c => c < k

structure EntryOK (pg : ParseGrammar) (input : Str) (a : List Traversal) (k : Nat) (t : Traversal) : Prop where
  id_eq : t.id = k
  input_eq : t.range.input = input
  prod : ∃ p, pg.productions[t.prodId]? = some p
  root : t.src = none → t.range.len = 0 ∧ (∃ r, getFrom input t.range.start = some r) ∧
    ∀ p, pg.productions[t.prodId]? = some p → t.unmatched = p.rhs.terms
  link : ∀ e, t.src = some e → e.parent < k ∧ e.term.below k ∧ ∃ tp, a[e.parent]? = some tp ∧
    t.prodId = tp.prodId ∧ t.range.start = tp.range.start ∧ t.isStarting = tp.isStarting ∧
    Link pg input a tp e.term t.range.len t.unmatched

/-- Why a production is predicted at a position: it is a start production or some earlier entry waits for it there. -/
def RootReason (S : Term) (a : List Traversal) (k : Nat) (lhs : Term) (start : Nat) : Prop :=
  (start = 0 ∧ lhs = S) ∨ ∃ (w : Nat) (tw : Traversal) (n : Str) (rest : List Term), w < k ∧ a[w]? = some tw ∧
    lhs = .nonterminal n ∧ tw.unmatched = .nonterminal n :: rest ∧ tw.total = start

/-- Structural invariant of traversal tree and queue. -/
structure SInv (pg : ParseGrammar) (input : Str) (S : Term) (t : TravTree) (q : TravQueue) : Prop where
  entries : ∀ (k : Nat) tr, t.arena[k]? = some tr → EntryOK pg input t.arena k tr
  roots : ∀ p i k, t.roots.get (p, i) = some k ↔
    ∃ tr, t.arena[k]? = some tr ∧ tr.src = none ∧ tr.prodId = p ∧ tr.range.start = i
  edges : ∀ e k, t.edges.get e = some k ↔ ∃ tr, t.arena[k]? = some tr ∧ tr.src = some e
  proc : ∀ k, k ∈ q.processed ↔ k < t.arena.length
  qnodup : q.queue.Nodup
  qlt : ∀ k ∈ q.queue, k < t.arena.length
  starting : ∀ (k : Nat) tr p, t.arena[k]? = some tr → pg.productions[tr.prodId]? = some p →
    (tr.isStarting = true ↔ tr.range.start = 0 ∧ p.lhs = S)
  origin : ∀ (k : Nat) tr p, t.arena[k]? = some tr → tr.src = none → pg.productions[tr.prodId]? = some p →
    RootReason S t.arena k p.lhs tr.range.start

/-- Growth of tree and queue. -/
structure Ext (t : TravTree) (q : TravQueue) (t' : TravTree) (q' : TravQueue) : Prop where
  arena : ∃ new, t'.arena = t.arena ++ new
  queue : ∃ ids, q'.queue = q.queue ++ ids ∧ ∀ k, k ∈ ids ↔ t.arena.length ≤ k ∧ k < t'.arena.length

theorem Ext.refl (t : TravTree) (q : TravQueue) : Ext t q t q :=
  ⟨⟨[], by simp⟩, ⟨[], by simp, by intro k; simp⟩⟩

theorem Ext.len_le {t q t' q'} (h : Ext t q t' q') : t.arena.length ≤ t'.arena.length := by
  obtain ⟨new, h⟩ := h.arena; simp [h]

theorem Ext.trans {t q t' q' t'' q''} (h : Ext t q t' q') (h' : Ext t' q' t'' q'') : Ext t q t'' q'' := by
  have l1 := h.len_le
  have l2 := h'.len_le
  obtain ⟨n1, h1⟩ := h.arena
  obtain ⟨n2, h2⟩ := h'.arena
  obtain ⟨i1, e1, m1⟩ := h.queue
  obtain ⟨i2, e2, m2⟩ := h'.queue
  refine ⟨⟨n1 ++ n2, by simp [h2, h1]⟩, ⟨i1 ++ i2, by simp [e2, e1], ?_⟩⟩
  intro k
  rw [List.mem_append, m1, m2]
  omega

theorem Ext.get {t q t' q'} (h : Ext t q t' q') {k : Nat} {tr : Traversal} (hk : t.arena[k]? = some tr) :
    t'.arena[k]? = some tr := by
  obtain ⟨new, h⟩ := h.arena
  rw [h, List.getElem?_append_left]
  · exact hk
  · exact (List.getElem?_eq_some_iff.mp hk).1

theorem Link.mono {pg input} {a new : List Traversal} {tp m len rest} (h : Link pg input a tp m len rest) :
    Link pg input (a ++ new) tp m len rest := by
  cases h with
  | terminal h1 h2 => exact .terminal h1 h2
  | nonterminal h1 h2 h3 h4 h5 h6 =>
    refine .nonterminal ?_ h2 h3 h4 h5 h6
    rw [List.getElem?_append_left (List.getElem?_eq_some_iff.mp h1).1]
    exact h1

theorem getElem?_append_mono {α : Type} {a new : List α} {k : Nat} {x : α} (h : a[k]? = some x) :
    (a ++ new)[k]? = some x := by
  rw [List.getElem?_append_left (List.getElem?_eq_some_iff.mp h).1]; exact h

theorem EntryOK.mono {pg input} {a new : List Traversal} {k : Nat} {t : Traversal} (h : EntryOK pg input a k t) :
    EntryOK pg input (a ++ new) k t := by
  refine ⟨h.id_eq, h.input_eq, h.prod, h.root, ?_⟩
  intro e he
  obtain ⟨h1, h2, tp, h3, h4, h5, h6, h7⟩ := h.link e he
  exact ⟨h1, h2, tp, getElem?_append_mono h3, h4, h5, h6, h7.mono⟩

theorem RootReason.mono {S : Term} {a new : List Traversal} {k k' : Nat} {lhs start} (h : RootReason S a k lhs start) (hk : k ≤ k') :
    RootReason S (a ++ new) k' lhs start := by
  rcases h with h | ⟨w, tw, n, rest, h1, h2, h3, h4, h5⟩
  · exact .inl h
  · exact .inr ⟨w, tw, n, rest, by omega, getElem?_append_mono h2, h3, h4, h5⟩

/-- Derivation so far denoted by an arena entry. -/
inductive Den (a : List Traversal) : Nat → List DNode → Prop
  | root {k : Nat} {t : Traversal} : a[k]? = some t → t.src = none → Den a k []
  | leaf {k t s par ks} : a[k]? = some t → t.src = some ⟨.terminal s, par⟩ → Den a par ks →
      Den a k (ks ++ [.leaf s])
  | node {k t c par ks tc kids} : a[k]? = some t → t.src = some ⟨.nonterminal c, par⟩ → Den a par ks →
      a[c]? = some tc → Den a c kids → Den a k (ks ++ [.node tc.prodId kids])

theorem Den.mono {a new : List Traversal} {k : Nat} {ks} (h : Den a k ks) : Den (a ++ new) k ks := by
  induction h with
  | root h1 h2 => exact .root (getElem?_append_mono h1) h2
  | leaf h1 h2 _ ih => exact .leaf (getElem?_append_mono h1) h2 ih
  | node h1 h2 _ h3 _ ih1 ih2 =>
    exact .node (getElem?_append_mono h1) h2 ih1 (getElem?_append_mono h3) ih2

/-- Meaning of an arena entry. -/
theorem SInv.sem {pg input S t q} (h : SInv pg input S t q) (k : Nat) (tr : Traversal)
    (hk : t.arena[k]? = some tr) :
    ∃ ks done r p, Den t.arena k ks ∧ pg.productions[tr.prodId]? = some p ∧
      p.rhs.terms = done ++ tr.unmatched ∧ VF pg done ks ∧
      getFrom input tr.range.start = some (dyield ks ++ r) ∧ tr.range.len = byteLen (dyield ks) := by
  induction k using Nat.strongRecOn generalizing tr with
  | _ k ih =>
    have hok := h.entries k tr hk
    obtain ⟨p, hp⟩ := hok.prod
    cases hsrc : tr.src with
    | none =>
      obtain ⟨h1, ⟨r, h2⟩, h3⟩ := hok.root hsrc
      exact ⟨[], [], r, p, .root hk hsrc, hp, by simp [h3 p hp], .nil, by simp [dyield, h2],
        by simp [dyield, byteLen, h1]⟩
    | some e =>
      obtain ⟨hlt, hbel, tp, htp, e1, e2, e3, hl⟩ := hok.link e hsrc
      obtain ⟨ks, done, r, p', hden, hp', hts, hvf, hfrom, hlen⟩ := ih e.parent hlt tp htp
      rw [e1] at hp
      have : p' = p := by rw [hp] at hp'; injection hp' with hp'; exact hp'.symm
      subst this
      have htot : getFrom input tp.total = some r := by
        have := getFrom_add hfrom
        rw [← hlen] at this; exact this
      obtain ⟨m, par⟩ := e
      revert hl
      generalize hL : tr.range.len = L
      generalize hU : tr.unmatched = U
      intro hl
      cases hl with
      | @terminal s rest r' hu hf =>
        refine ⟨ks ++ [.leaf s], done ++ [.terminal s], r', p', .leaf hk hsrc hden, by rw [e1]; exact hp, ?_,
          hvf.append (.leaf .nil), ?_, ?_⟩
        · rw [hts, hu]; simp
        · have : r = s ++ r' := by rw [htot] at hf; injection hf
          rw [e2, hfrom, this]; simp [dyield, dnodeYield]
        · simp [dyield, dnodeYield, hlen]
      | @nonterminal c tc pc n rest hc hcu hpc hn hu hst =>
        obtain ⟨ks', done', r', pc', hden', hp'', hts', hvf', hfrom', hlen'⟩ := ih c hbel tc hc
        have : pc' = pc := by rw [hpc] at hp''; injection hp'' with hp''; exact hp''.symm
        subst this
        rw [hcu, List.append_nil] at hts'
        refine ⟨ks ++ [.node tc.prodId ks'], done ++ [.nonterminal n], r', p', .node hk hsrc hden hc hden',
          by rw [e1]; exact hp, ?_, hvf.append (.node hpc hn (by rw [hts']; exact hvf') .nil), ?_, ?_⟩
        · rw [hts, hu]; simp
        · have : r = dyield ks' ++ r' := by
            rw [hst] at hfrom'; rw [htot] at hfrom'; injection hfrom'
          rw [e2, hfrom, this]; simp [dyield, dnodeYield]
        · simp [dyield, dnodeYield, hlen, hlen']

theorem SInv.total_ok {pg input S t q} (h : SInv pg input S t q) {k : Nat} {tr : Traversal}
    (hk : t.arena[k]? = some tr) : ∃ r, getFrom input tr.total = some r := by
  obtain ⟨ks, _, r, _, _, _, _, _, hf, hl⟩ := h.sem k tr hk
  have := getFrom_add hf
  rw [← hl] at this
  exact ⟨r, this⟩

theorem getElem?_snoc {α : Type} (a : List α) (x : α) (k : Nat) (y : α) :
    (a ++ [x])[k]? = some y ↔ a[k]? = some y ∨ (k = a.length ∧ y = x) := by
  rcases Nat.lt_trichotomy k a.length with h | h | h
  · rw [List.getElem?_append_left h]
    constructor
    · exact Or.inl
    · rintro (h' | ⟨h', _⟩)
      · exact h'
      · omega
  · subst h
    simp [eq_comm]
  · rw [List.getElem?_eq_none (by simp; omega), List.getElem?_eq_none (by omega)]
    simp; omega

/-- Pushing a fresh last entry's id onto the queue. -/
theorem pushBack_new {pg input S t q} (h : SInv pg input S t q) :
    (q.pushBack t.arena.length) = ⟨t.arena.length :: q.processed, q.queue ++ [t.arena.length]⟩ := by
  unfold TravQueue.pushBack
  rw [if_neg]
  rw [h.proc]; omega

theorem pushBack_old {pg input S t q} (h : SInv pg input S t q) {k : Nat} (hk : k < t.arena.length) :
    q.pushBack k = q := by
  unfold TravQueue.pushBack
  rw [if_pos]
  rw [h.proc]; exact hk

theorem qnodup_push {q : List Nat} {n : Nat} (h : q.Nodup) (hlt : ∀ k ∈ q, k < n) : (q ++ [n]).Nodup := by
  rw [List.nodup_append]
  refine ⟨h, by simp, ?_⟩
  intro a ha b hb
  have := hlt a ha
  simp at hb
  omega

theorem ext_push {t : TravTree} {q : TravQueue} {x : Traversal} {r e} :
    Ext t q ⟨t.arena ++ [x], r, e⟩ ⟨t.arena.length :: q.processed, q.queue ++ [t.arena.length]⟩ := by
  refine ⟨⟨[x], rfl⟩, ⟨[t.arena.length], rfl, ?_⟩⟩
  intro k
  simp
  omega

/-- `predict` followed by pushing the id keeps the invariant. -/
theorem predict_push {pg input S t q} (hpg : PGOk pg) (h : SInv pg input S t q) {range : InputRange}
    {p : FlatProd} {flag : Bool} (hin : range.input = input) (hp : p ∈ pg.productions)
    (hr : ∃ r, getFrom input range.totalLen = some r)
    (hflag : t.roots.get (p.id, range.totalLen) = none → (flag = true ↔ range.totalLen = 0 ∧ p.lhs = S))
    (hor : RootReason S t.arena t.arena.length p.lhs range.totalLen) :
    SInv pg input S (t.predict range p flag).2 (q.pushBack (t.predict range p flag).1) ∧
    Ext t q (t.predict range p flag).2 (q.pushBack (t.predict range p flag).1) ∧
    (t.predict range p flag).2.roots.get (p.id, range.totalLen) = some (t.predict range p flag).1 := by
  obtain ⟨i, hi⟩ := List.mem_iff_getElem?.mp hp
  have hid := hpg.id_eq i p hi
  have hpi : pg.productions[p.id]? = some p := by rw [hid]; exact hi
  unfold TravTree.predict
  simp only
  split
  · rename_i id hid'
    obtain ⟨tr, htr, _⟩ := (h.roots _ _ _).mp hid'
    have hlt := (List.getElem?_eq_some_iff.mp htr).1
    simp only [pushBack_old h hlt]
    exact ⟨h, Ext.refl _ _, hid'⟩
  · rename_i hnone
    simp only [pushBack_new h]
    refine ⟨?_, ext_push, ?_⟩
    · constructor
      · intro k tr hk
        rcases (getElem?_snoc _ _ _ _).mp hk with hk | ⟨rfl, rfl⟩
        · exact (h.entries k tr hk).mono
        · refine ⟨rfl, hin, ⟨p, hpi⟩, ?_, ?_⟩
          · intro _
            refine ⟨rfl, hr, ?_⟩
            intro p' hp'
            simp only at hp'
            rw [hpi] at hp'
            injection hp' with hp'
            rw [hp']
          · intro e he; simp at he
      · intro p' i' k
        simp only [AMap.get_set]
        split
        · rename_i heq
          injection heq with e1 e2
          constructor
          · intro hk
            injection hk with hk
            refine ⟨_, (getElem?_snoc _ _ _ _).mpr (Or.inr ⟨hk.symm, rfl⟩), rfl, e1, e2⟩
          · rintro ⟨tr, htr, hs, h1, h2⟩
            rcases (getElem?_snoc _ _ _ _).mp htr with htr | ⟨rfl, rfl⟩
            · have := (h.roots p' i' k).mpr ⟨tr, htr, hs, h1, h2⟩
              rw [← e1, ← e2, hnone] at this
              cases this
            · rfl
        · rename_i hne
          rw [h.roots]
          constructor
          · rintro ⟨tr, htr, hs, h1, h2⟩
            exact ⟨tr, getElem?_append_mono htr, hs, h1, h2⟩
          · rintro ⟨tr, htr, hs, h1, h2⟩
            rcases (getElem?_snoc _ _ _ _).mp htr with htr | ⟨rfl, rfl⟩
            · exact ⟨tr, htr, hs, h1, h2⟩
            · exact absurd (Prod.ext h1 h2) hne
      · intro e k
        simp only
        rw [h.edges]
        constructor
        · rintro ⟨tr, htr, hs⟩
          exact ⟨tr, getElem?_append_mono htr, hs⟩
        · rintro ⟨tr, htr, hs⟩
          rcases (getElem?_snoc _ _ _ _).mp htr with htr | ⟨rfl, rfl⟩
          · exact ⟨tr, htr, hs⟩
          · simp at hs
      · intro k
        simp [h.proc]
        omega
      · exact qnodup_push h.qnodup h.qlt
      · intro k hk
        simp at hk ⊢
        rcases hk with hk | rfl
        · have := h.qlt k hk; omega
        · omega
      · intro k tr p' hk hp'
        rcases (getElem?_snoc _ _ _ _).mp hk with hk | ⟨rfl, rfl⟩
        · exact h.starting k tr p' hk hp'
        · simp only at hp' ⊢
          rw [hpi] at hp'
          injection hp' with hp'
          subst hp'
          exact hflag hnone
      · intro k tr p' hk hs hp'
        rcases (getElem?_snoc _ _ _ _).mp hk with hk | ⟨rfl, rfl⟩
        · exact (h.origin k tr p' hk hs hp').mono (Nat.le_refl _)
        · simp only at hp' ⊢
          rw [hpi] at hp'
          injection hp' with hp'
          subst hp'
          exact hor.mono (Nat.le_refl _)
    · simp [AMap.get_set]

theorem advanceBy_ok {r : InputRange} {step : Nat} (h : r.start + r.len + step ≤ byteLen r.input) :
    r.advanceBy step = some ⟨r.input, r.start, r.len + step⟩ := by
  unfold InputRange.advanceBy
  rw [if_neg (by omega)]
  simp only
  congr 2
  omega

theorem matchRange_ok {pg input S t q} (h : SInv pg input S t q) {k : Nat} {tp : Traversal} {m len rest}
    (hk : t.arena[k]? = some tp) (hl : Link pg input t.arena tp m len rest) :
    t.matchRange tp m = some ⟨input, tp.range.start, len⟩ := by
  have hin := (h.entries k tp hk).input_eq
  cases hl with
  | terminal h1 h2 =>
    unfold TravTree.matchRange
    simp only
    have := getFrom_len h2
    simp at this
    rw [advanceBy_ok]
    · rw [hin]
    · rw [hin, ← this]; simp [Traversal.total, InputRange.totalLen]
  | nonterminal h1 h2 h3 h4 h5 h6 =>
    unfold TravTree.matchRange TravTree.get
    simp only [h1]
    obtain ⟨r, hr⟩ := h.total_ok h1
    have := getFrom_len hr
    simp only [Traversal.total, InputRange.totalLen] at this h6
    rw [advanceBy_ok]
    · rw [hin]
    · rw [hin]; omega

theorem Link.unmatched {pg input a tp m len rest} (h : Link pg input a tp m len rest) :
    ∃ T, tp.unmatched = T :: rest := by
  cases h with
  | terminal h1 _ => exact ⟨_, h1⟩
  | nonterminal _ _ _ _ h5 _ => exact ⟨_, h5⟩

theorem Link.below {pg input a tp m len rest} (h : Link pg input a tp m len rest) : m.below a.length := by
  cases h with
  | terminal h1 _ => trivial
  | nonterminal h1 _ _ _ _ _ => exact (List.getElem?_eq_some_iff.mp h1).1

/-- `match_term` followed by pushing the id keeps the invariant. -/
theorem match_push {pg input S t q} (h : SInv pg input S t q) {k : Nat} {tp : Traversal} {m len rest}
    (hk : t.arena[k]? = some tp) (hl : Link pg input t.arena tp m len rest) :
    ∃ id t', t.matchTerm k m = some (id, t') ∧ SInv pg input S t' (q.pushBack id) ∧
      Ext t q t' (q.pushBack id) ∧ t'.edges.get ⟨m, k⟩ = some id := by
  have hok := h.entries k tp hk
  obtain ⟨T, hT⟩ := hl.unmatched
  have hlt := (List.getElem?_eq_some_iff.mp hk).1
  have hget : t.get k = some tp := hk
  unfold TravTree.matchTerm
  rw [hget]
  simp only [matchRange_ok h hk hl, hT, hok.id_eq]
  split
  · rename_i id hid
    obtain ⟨tr, htr, _⟩ := (h.edges _ _).mp hid
    have hlt' := (List.getElem?_eq_some_iff.mp htr).1
    refine ⟨id, t, rfl, ?_⟩
    rw [pushBack_old h hlt']
    exact ⟨h, Ext.refl _ _, hid⟩
  · rename_i hnone
    refine ⟨_, _, rfl, ?_⟩
    rw [pushBack_new h]
    refine ⟨?_, ext_push, ?_⟩
    · constructor
      · intro k' tr hk'
        rcases (getElem?_snoc _ _ _ _).mp hk' with hk' | ⟨rfl, rfl⟩
        · exact (h.entries k' tr hk').mono
        · refine ⟨rfl, rfl, hok.prod, ?_, ?_⟩
          · intro hs; simp at hs
          · intro e he
            simp at he
            subst he
            exact ⟨hlt, hl.below, tp, getElem?_append_mono hk, rfl, rfl, rfl, hl.mono⟩
      · intro p' i' k'
        simp only
        rw [h.roots]
        constructor
        · rintro ⟨tr, htr, hs⟩
          exact ⟨tr, getElem?_append_mono htr, hs⟩
        · rintro ⟨tr, htr, hs⟩
          rcases (getElem?_snoc _ _ _ _).mp htr with htr | ⟨rfl, rfl⟩
          · exact ⟨tr, htr, hs⟩
          · simp at hs
      · intro e k'
        simp only [AMap.get_set]
        split
        · rename_i heq
          subst heq
          constructor
          · intro hk'
            injection hk' with hk'
            exact ⟨_, (getElem?_snoc _ _ _ _).mpr (Or.inr ⟨hk'.symm, rfl⟩), rfl⟩
          · rintro ⟨tr, htr, hs⟩
            rcases (getElem?_snoc _ _ _ _).mp htr with htr | ⟨rfl, rfl⟩
            · have := (h.edges _ k').mpr ⟨tr, htr, hs⟩
              rw [hnone] at this; cases this
            · rfl
        · rename_i hne
          rw [h.edges]
          constructor
          · rintro ⟨tr, htr, hs⟩
            exact ⟨tr, getElem?_append_mono htr, hs⟩
          · rintro ⟨tr, htr, hs⟩
            rcases (getElem?_snoc _ _ _ _).mp htr with htr | ⟨rfl, rfl⟩
            · exact ⟨tr, htr, hs⟩
            · simp at hs; exact absurd hs hne
      · intro k'
        simp [h.proc]
        omega
      · exact qnodup_push h.qnodup h.qlt
      · intro k' hk'
        simp at hk' ⊢
        rcases hk' with hk' | rfl
        · have := h.qlt k' hk'; omega
        · omega
      · intro k' tr p' hk' hp'
        rcases (getElem?_snoc _ _ _ _).mp hk' with hk' | ⟨rfl, rfl⟩
        · exact h.starting k' tr p' hk' hp'
        · exact h.starting k tp p' hk hp'
      · intro k' tr p' hk' hs hp'
        rcases (getElem?_snoc _ _ _ _).mp hk' with hk' | ⟨rfl, rfl⟩
        · exact (h.origin k' tr p' hk' hs hp').mono (Nat.le_refl _)
        · simp at hs
    · simp [AMap.get_set]

/-- Recorded roots stay. -/
theorem SInv.roots_mono {pg input S t q t' q'} (h : SInv pg input S t q) (h' : SInv pg input S t' q')
    (he : Ext t q t' q') {p i k : Nat} (hk : t.roots.get (p, i) = some k) : t'.roots.get (p, i) = some k := by
  obtain ⟨tr, htr, hs⟩ := (h.roots _ _ _).mp hk
  exact (h'.roots _ _ _).mpr ⟨tr, he.get htr, hs⟩

theorem SInv.edges_mono {pg input S t q t' q'} (h : SInv pg input S t q) (h' : SInv pg input S t' q')
    (he : Ext t q t' q') {e k} (hk : t.edges.get e = some k) : t'.edges.get e = some k := by
  obtain ⟨tr, htr, hs⟩ := (h.edges _ _).mp hk
  exact (h'.edges _ _).mpr ⟨tr, he.get htr, hs⟩

/-- The prediction loop. -/
theorem predictAll_inv {pg input S} (hpg : PGOk pg) {range : InputRange} {flag : Bool}
    (hin : range.input = input) (hr : ∃ r, getFrom input range.totalLen = some r)
    (ps : List FlatProd) {t q} (h : SInv pg input S t q) (hp : ∀ p ∈ ps, p ∈ pg.productions)
    (hflag : ∀ p ∈ ps, ∀ t' q', Ext t q t' q' → SInv pg input S t' q' →
      t'.roots.get (p.id, range.totalLen) = none → (flag = true ↔ range.totalLen = 0 ∧ p.lhs = S))
    (hor : ∀ p ∈ ps, RootReason S t.arena t.arena.length p.lhs range.totalLen) :
    SInv pg input S (predictAll range flag ps t q).1 (predictAll range flag ps t q).2 ∧
    Ext t q (predictAll range flag ps t q).1 (predictAll range flag ps t q).2 ∧
    ∀ p ∈ ps, ∃ k, (predictAll range flag ps t q).1.roots.get (p.id, range.totalLen) = some k := by
  induction ps generalizing t q with
  | nil => exact ⟨h, Ext.refl _ _, by simp⟩
  | cons p ps ih =>
    obtain ⟨h1, e1, r1⟩ := predict_push hpg h hin (hp p (by simp)) hr
      (hflag p (by simp) t q (Ext.refl _ _) h) (hor p (by simp))
    obtain ⟨h2, e2, r2⟩ := ih h1 (fun p' hp' => hp p' (by simp [hp']))
      (fun p' hp' t' q' he hi => hflag p' (by simp [hp']) t' q' (e1.trans he) hi)
      (fun p' hp' => by
        obtain ⟨new, hn⟩ := e1.arena
        have hle := e1.len_le
        rw [hn] at hle ⊢
        exact (hor p' (by simp [hp'])).mono hle)
    simp only [predictAll]
    refine ⟨h2, e1.trans e2, ?_⟩
    intro p' hp'
    rcases List.mem_cons.mp hp' with rfl | hp'
    · exact ⟨_, h1.roots_mono h2 e2 r1⟩
    · exact r2 p' hp'

/-- The matching loops. -/
theorem matchAll_inv {pg input S} (ms : List (Nat × TermMatch)) {t q} (h : SInv pg input S t q)
    (hm : ∀ x ∈ ms, ∃ tp len rest, t.arena[x.1]? = some tp ∧ Link pg input t.arena tp x.2 len rest) :
    ∃ t' q', matchAll ms t q = some (t', q') ∧ SInv pg input S t' q' ∧ Ext t q t' q' ∧
      ∀ x ∈ ms, ∃ k, t'.edges.get ⟨x.2, x.1⟩ = some k := by
  induction ms generalizing t q with
  | nil => exact ⟨t, q, rfl, h, Ext.refl _ _, by simp⟩
  | cons x xs ih =>
    obtain ⟨tp, len, rest, hx, hl⟩ := hm x (by simp)
    obtain ⟨id, t1, e, h1, e1, r1⟩ := match_push h hx hl
    obtain ⟨t2, q2, e', h2, e2, r2⟩ := ih h1 (by
      intro y hy
      obtain ⟨tp, len, rest, hx, hl⟩ := hm y (by simp [hy])
      obtain ⟨new, hn⟩ := e1.arena
      exact ⟨tp, len, rest, e1.get hx, by rw [hn]; exact hl.mono⟩)
    refine ⟨t2, q2, ?_, h2, e1.trans e2, ?_⟩
    · simp only [matchAll, e, e']
    · intro y hy
      rcases List.mem_cons.mp hy with rfl | hy
      · exact ⟨_, h1.edges_mono h2 e2 r1⟩
      · exact r2 y hy

end Bnf
