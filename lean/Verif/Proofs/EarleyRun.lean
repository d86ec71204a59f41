import Verif.Proofs.ReadTree

/-! Runs of the Earley loop: fairness and completeness. -/

set_option autoImplicit false

namespace Bnf

/-- A number of rounds of the loop, with the ids at which the loop returned. -/
inductive Rounds (pg : ParseGrammar) : PState → List Nat → PState → Prop
  | refl {st} : Rounds pg st [] st
  | quiet {st id rest st' ems st''} : st.queue.queue = id :: rest →
      earleyRound pg (st.pop rest) id = some (st', false) → Rounds pg st' ems st'' → Rounds pg st ems st''
  | emit {st id rest st' ems st''} : st.queue.queue = id :: rest →
      earleyRound pg (st.pop rest) id = some (st', true) → Rounds pg st' ems st'' → Rounds pg st (id :: ems) st''

theorem Rounds.trans {pg st e1 st1 e2 st2} (h : Rounds pg st e1 st1) (h' : Rounds pg st1 e2 st2) :
    Rounds pg st (e1 ++ e2) st2 := by
  induction h with
  | refl => exact h'
  | quiet hq hr _ ih => exact .quiet hq hr (ih h')
  | emit hq hr _ ih => exact .emit hq hr (ih h')

/-- What is preserved by rounds. -/
structure Later (st st' : PState) : Prop where
  arena : ∃ new, st'.tree.arena = st.tree.arena ++ new
  popped : ∀ k, Popped st k → Popped st' k

theorem Later.refl (st : PState) : Later st st := ⟨⟨[], by simp⟩, fun _ h => h⟩

theorem Later.trans {a b c : PState} (h : Later a b) (h' : Later b c) : Later a c := by
  obtain ⟨n1, e1⟩ := h.arena
  obtain ⟨n2, e2⟩ := h'.arena
  exact ⟨⟨n1 ++ n2, by simp [e2, e1]⟩, fun k hk => h'.popped k (h.popped k hk)⟩

theorem Later.get {st st' : PState} (h : Later st st') {k : Nat} {t : Traversal}
    (hk : st.tree.arena[k]? = some t) : st'.tree.arena[k]? = some t := by
  obtain ⟨n, e⟩ := h.arena
  rw [e]; exact getElem?_append_mono hk

theorem Later.den {st st' : PState} (h : Later st st') {k : Nat} {ks}
    (hk : Den st.tree.arena k ks) : Den st'.tree.arena k ks := by
  obtain ⟨n, e⟩ := h.arena
  rw [e]; exact hk.mono

theorem Later.of_round {pg input S} (hpg : PGOk pg) {st : PState} (h : Inv pg input S st) {id rest st' b}
    (hq : st.queue.queue = id :: rest) (hr : earleyRound pg (st.pop rest) id = some (st', b)) :
    Inv pg input S st' ∧ Later st st' ∧ (∀ k, Popped st' k ↔ Popped st k ∨ k = id) ∧
    (b = true ↔ Full pg input S st id) ∧ Ext (st.pop rest).tree (st.pop rest).queue st'.tree st'.queue := by
  obtain ⟨st1, b1, e, hi, he, hP, hb⟩ := h.round hpg hq
  rw [hr] at e
  injection e with e
  injection e with e1 e2
  subst e1 e2
  exact ⟨hi, ⟨he.arena, fun k hk => (hP k).mpr (Or.inl hk)⟩, hP, hb, he⟩

theorem Full.later {pg input S} {st st' : PState} (h : Later st st') {id : Nat} (hf : Full pg input S st id) :
    Full pg input S st' id := by
  obtain ⟨t, p, h1, h2⟩ := hf
  exact ⟨t, p, h.get h1, h2⟩

theorem Full.earlier {pg input S} {st st' : PState} (h : Later st st') {id : Nat}
    (hlt : id < st.tree.arena.length) (hf : Full pg input S st' id) : Full pg input S st id := by
  obtain ⟨t, p, h1, h2⟩ := hf
  obtain ⟨n, e⟩ := h.arena
  rw [e, getElem?_append_lt hlt] at h1
  exact ⟨t, p, h1, h2⟩

/-- Rounds keep the invariant; the emitted ids are exactly the newly popped full entries, each once. -/
theorem Rounds.inv {pg input S} (hpg : PGOk pg) {st ems st'} (hr : Rounds pg st ems st')
    (h : Inv pg input S st) :
    Inv pg input S st' ∧ Later st st' ∧ ems.Nodup ∧
    ∀ id, id ∈ ems ↔ Popped st' id ∧ ¬ Popped st id ∧ Full pg input S st' id := by
  induction hr with
  | refl => exact ⟨h, Later.refl _, List.nodup_nil, by simp; intro id h1 h2; exact absurd h1 h2⟩
  | @quiet st id rest st1 ems st2 hq hr _ ih =>
    obtain ⟨hi, hl, hP, hb, _⟩ := Later.of_round hpg h hq hr
    obtain ⟨hi2, hl2, hn, hm⟩ := ih hi
    refine ⟨hi2, hl.trans hl2, hn, ?_⟩
    intro k
    rw [hm]
    have hidlt := h.s.qlt id (by rw [hq]; simp)
    constructor
    · rintro ⟨h1, h2, h3⟩
      exact ⟨h1, fun hk => h2 (hl.popped k hk), h3⟩
    · rintro ⟨h1, h2, h3⟩
      refine ⟨h1, ?_, h3⟩
      rw [hP]
      rintro (hk | rfl)
      · exact h2 hk
      · have := hb.mpr (Full.earlier (hl.trans hl2) hidlt h3)
        cases this
  | @emit st id rest st1 ems st2 hq hr _ ih =>
    obtain ⟨hi, hl, hP, hb, _⟩ := Later.of_round hpg h hq hr
    obtain ⟨hi2, hl2, hn, hm⟩ := ih hi
    have hidlt := h.s.qlt id (by rw [hq]; simp)
    have hnp : ¬ Popped st id := fun hp => hp.2 (by rw [hq]; simp)
    have hp1 : Popped st1 id := (hP id).mpr (Or.inr rfl)
    refine ⟨hi2, hl.trans hl2, List.nodup_cons.mpr ⟨?_, hn⟩, ?_⟩
    · rw [hm]; rintro ⟨_, h2, _⟩; exact h2 hp1
    · intro k
      rw [List.mem_cons, hm]
      constructor
      · rintro (rfl | ⟨h1, h2, h3⟩)
        · exact ⟨hl2.popped _ hp1, hnp, Full.later (hl.trans hl2) (hb.mp rfl)⟩
        · exact ⟨h1, fun hk => h2 (hl.popped k hk), h3⟩
      · rintro ⟨h1, h2, h3⟩
        by_cases hk : k = id
        · exact Or.inl hk
        · refine Or.inr ⟨h1, ?_, h3⟩
          rw [hP]
          rintro (hk' | hk')
          · exact h2 hk'
          · exact hk hk'

/-- Progress: one round is possible when the queue is not empty. -/
theorem Rounds.one {pg input S} (hpg : PGOk pg) {st : PState} (h : Inv pg input S st) {id rest}
    (hq : st.queue.queue = id :: rest) : ∃ ems st', Rounds pg st ems st' ∧ Popped st' id ∧
      ∃ ids, st'.queue.queue = rest ++ ids := by
  obtain ⟨st1, b, e, hi, he, hP, hb⟩ := h.round hpg hq
  obtain ⟨ids, hids, _⟩ := he.queue
  cases b with
  | true => exact ⟨[id], st1, .emit hq e .refl, (hP id).mpr (Or.inr rfl), ids, hids⟩
  | false => exact ⟨[], st1, .quiet hq e .refl, (hP id).mpr (Or.inr rfl), ids, hids⟩

/-- FIFO fairness: every arena entry is eventually popped. -/
theorem eventually_popped {pg input S} (hpg : PGOk pg) {id : Nat} (pre : List Nat) :
    ∀ {st : PState} {post}, Inv pg input S st → st.queue.queue = pre ++ id :: post →
    ∃ ems st', Rounds pg st ems st' ∧ Popped st' id := by
  induction pre with
  | nil =>
    intro st post h hq
    obtain ⟨ems, st', hr, hp, _⟩ := Rounds.one hpg h hq
    exact ⟨ems, st', hr, hp⟩
  | cons x pre ih =>
    intro st post h hq
    obtain ⟨ems, st', hr, hp, ids, hq'⟩ := Rounds.one hpg h hq
    obtain ⟨ems2, st2, hr2, hp2⟩ := ih (hr.inv hpg h).1 (post := post ++ ids) (by rw [hq']; exact List.append_assoc pre (id :: post) ids)
    exact ⟨ems ++ ems2, st2, hr.trans hr2, hp2⟩

theorem eventually_popped' {pg input S} (hpg : PGOk pg) {st : PState} (h : Inv pg input S st) {id : Nat}
    (hlt : id < st.tree.arena.length) : ∃ ems st', Rounds pg st ems st' ∧ Popped st' id := by
  by_cases hm : id ∈ st.queue.queue
  · obtain ⟨pre, post, hq⟩ := List.append_of_mem hm
    exact eventually_popped hpg pre h hq
  · exact ⟨[], st, .refl, hlt, hm⟩

/-- Completeness of the run: an entry whose next terms derive the following input is eventually extended. -/
theorem eventually_extended {pg input S} (hpg : PGOk pg) {ts ks} (hv : VF pg ts ks) :
    ∀ {st : PState} {id : Nat} {tr : Traversal} {us r ks0}, Inv pg input S st → st.tree.arena[id]? = some tr →
    tr.unmatched = ts ++ us → getFrom input tr.total = some (dyield ks ++ r) → Den st.tree.arena id ks0 →
    ∃ ems st' id' tr', Rounds pg st ems st' ∧ st'.tree.arena[id']? = some tr' ∧ tr'.unmatched = us ∧
      tr'.prodId = tr.prodId ∧ tr'.range.start = tr.range.start ∧
      tr'.total = tr.total + byteLen (dyield ks) ∧ Den st'.tree.arena id' (ks0 ++ ks) := by
  induction hv with
  | nil =>
    intro st id tr us r ks0 h hid hu hf hd
    exact ⟨[], st, id, tr, .refl, hid, by simpa using hu, rfl, rfl, by simp [dyield, byteLen], by simpa using hd⟩
  | @leaf s ts ks _ ih =>
    intro st id tr us r ks0 h hid hu hf hd
    obtain ⟨e1, st1, hr1, hp1⟩ := eventually_popped' hpg h (List.getElem?_eq_some_iff.mp hid).1
    obtain ⟨hi1, hl1, _⟩ := hr1.inv hpg h
    have hf' : getFrom input tr.total = some (s ++ (dyield ks ++ r)) := by
      rw [hf]; simp [dyield, dnodeYield]
    obtain ⟨k', hk'⟩ := hi1.k.scan id tr s (ts ++ us) _ hp1 (hl1.get hid) hu hf'
    obtain ⟨tr', htr', hsrc⟩ := (hi1.s.edges _ _).mp hk'
    obtain ⟨_, _, tp, htp, e1', e2, e3, hlk⟩ := (hi1.s.entries k' tr' htr').link _ hsrc
    rw [hl1.get hid] at htp; injection htp with htp; subst htp
    have hd1 : Den st1.tree.arena k' (ks0 ++ [.leaf s]) := .leaf htr' hsrc (hl1.den hd)
    simp only at hlk
    have hun : tr'.unmatched = ts ++ us ∧ tr'.range.len = tr.range.len + byteLen s := by
      generalize tr'.range.len = L at hlk
      generalize tr'.unmatched = U at hlk
      cases hlk with
      | terminal h1 h2 => rw [hu] at h1; injection h1 with _ h1; exact ⟨h1.symm, rfl⟩
    have htot : tr'.total = tr.total + byteLen s := by
      simp only [Traversal.total, InputRange.totalLen, e2, hun.2]; omega
    obtain ⟨ems2, st2, id2, tr2, hr2, h1, h2, h3, h4, h5, h6⟩ := ih hi1 htr' hun.1 (r := r) (by
      rw [htot]; exact getFrom_add hf') hd1
    refine ⟨e1 ++ ems2, st2, id2, tr2, hr1.trans hr2, h1, h2, by rw [h3, e1'], by rw [h4, e2], ?_, by simpa using h6⟩
    rw [h5, htot]; simp [dyield, dnodeYield]; omega
  | @node pid p n kids ts ks hpid hlhs _ _ ihk ih =>
    intro st id tr us r ks0 h hid hu hf hd
    obtain ⟨e1, st1, hr1, hp1⟩ := eventually_popped' hpg h (List.getElem?_eq_some_iff.mp hid).1
    obtain ⟨hi1, hl1, _⟩ := hr1.inv hpg h
    obtain ⟨k0, hk0⟩ := hi1.k.pred id tr n (ts ++ us) pid p hp1 (hl1.get hid) hu hpid hlhs
    obtain ⟨tr0, htr0, hs0, hpr0, hst0⟩ := (hi1.s.roots _ _ _).mp hk0
    obtain ⟨hlen0, _, hun0⟩ := (hi1.s.entries k0 tr0 htr0).root hs0
    have hf' : getFrom input tr.total = some (dyield kids ++ (dyield ks ++ r)) := by
      rw [hf]; simp [dyield, dnodeYield]
    have htot0 : tr0.total = tr.total := by
      simp only [Traversal.total, InputRange.totalLen] at hst0 ⊢; omega
    obtain ⟨e2, st2, c, tc, hr2, hc, hcu, hcp, hcs, hct, hcd⟩ := ihk (us := []) hi1 htr0
      (by rw [List.append_nil]; exact hun0 p (by rw [hpr0]; exact hpid)) (by rw [htot0]; exact hf') (.root htr0 hs0)
    obtain ⟨hi2, hl2, _⟩ := hr2.inv hpg hi1
    obtain ⟨e3, st3, hr3, hp3⟩ := eventually_popped' hpg hi2 (List.getElem?_eq_some_iff.mp hc).1
    obtain ⟨hi3, hl3, _⟩ := hr3.inv hpg hi2
    have hid3 := hl3.get (hl2.get (hl1.get hid))
    have hc3 := hl3.get hc
    obtain ⟨k', hk'⟩ := hi3.k.compl id tr n (ts ++ us) c tc p (hl3.popped _ (hl2.popped _ hp1)) hid3 hu hp3 hc3 hcu
      (by rw [hcp, hpr0]; exact hpid) hlhs (by rw [hcs, hst0])
    obtain ⟨tr', htr', hsrc⟩ := (hi3.s.edges _ _).mp hk'
    obtain ⟨_, _, tp, htp, e1', e2', e3', hlk⟩ := (hi3.s.entries k' tr' htr').link _ hsrc
    rw [hid3] at htp; injection htp with htp; subst htp
    have hd3 : Den st3.tree.arena k' (ks0 ++ [.node pid kids]) := by
      have := Den.node htr' hsrc (hl3.den (hl2.den (hl1.den hd))) hc3 (hl3.den hcd)
      rw [hcp, hpr0] at this
      simpa using this
    have hclen : tc.range.len = byteLen (dyield kids) := by
      simp only [Traversal.total, InputRange.totalLen] at hct htot0 hst0; omega
    simp only at hlk
    have hun : tr'.unmatched = ts ++ us ∧ tr'.range.len = tr.range.len + tc.range.len := by
      generalize tr'.range.len = L at hlk
      generalize tr'.unmatched = U at hlk
      cases hlk with
      | nonterminal h1 h2 h3 h4 h5 h6 =>
        rw [hu] at h5; injection h5 with _ h5
        rw [hc3] at h1; injection h1 with h1; subst h1
        exact ⟨h5.symm, rfl⟩
    have htot : tr'.total = tr.total + byteLen (dyield kids) := by
      simp only [Traversal.total, InputRange.totalLen, e2', hun.2, hclen]; omega
    obtain ⟨ems4, st4, id4, tr4, hr4, h1, h2, h3, h4, h5, h6⟩ := ih hi3 htr' hun.1 (r := r) (by
      rw [htot]; exact getFrom_add hf') hd3
    refine ⟨e1 ++ (e2 ++ (e3 ++ ems4)), st4, id4, tr4, hr1.trans (hr2.trans (hr3.trans hr4)), h1, h2,
      by rw [h3, e1'], by rw [h4, e2'], ?_, by simpa using h6⟩
    rw [h5, htot]; simp [dyield, dnodeYield]; omega

/-- Every complete derivation is eventually popped as a full entry. -/
theorem eventually_full {pg input S} (hpg : PGOk pg) {st : PState} (h : Inv pg input S st) {pid p ks}
    (hp : pg.productions[pid]? = some p) (hl : p.lhs = S) (hv : VF pg p.rhs.terms ks) (hy : dyield ks = input) :
    ∃ ems st' id tr, Rounds pg st ems st' ∧ Popped st' id ∧ Full pg input S st' id ∧
      st'.tree.arena[id]? = some tr ∧ tr.prodId = pid ∧ Den st'.tree.arena id ks := by
  obtain ⟨k0, hk0⟩ := h.startRoots pid p hp hl
  obtain ⟨tr0, htr0, hs0, hpr0, hst0⟩ := (h.s.roots _ _ _).mp hk0
  obtain ⟨hlen0, _, hun0⟩ := (h.s.entries k0 tr0 htr0).root hs0
  have ht0 : tr0.total = 0 := by simp only [Traversal.total, InputRange.totalLen]; omega
  obtain ⟨e1, st1, id, tr, hr1, hid, hu, hpr, hst, htot, hd⟩ := eventually_extended hpg hv (us := []) (r := []) h htr0
    (by rw [List.append_nil]; exact hun0 p (by rw [hpr0]; exact hp)) (by rw [ht0, hy]; simp) (.root htr0 hs0)
  obtain ⟨hi1, hl1, _⟩ := hr1.inv hpg h
  obtain ⟨e2, st2, hr2, hp2⟩ := eventually_popped' hpg hi1 (List.getElem?_eq_some_iff.mp hid).1
  obtain ⟨hi2, hl2, _⟩ := hr2.inv hpg hi1
  refine ⟨e1 ++ e2, st2, id, tr, hr1.trans hr2, hp2, ⟨tr, p, hl2.get hid, hu, by rw [hpr, hpr0]; exact hp, hl,
    by rw [hst, hst0], ?_⟩, hl2.get hid, by rw [hpr, hpr0], hl2.den (by simpa using hd)⟩
  rw [hy, ht0] at htot
  simp only [Traversal.total, InputRange.totalLen] at htot
  omega

/-- Denotations are unique. -/
theorem Den.fun {a : List Traversal} {k : Nat} {ks ks'} (h : Den a k ks) (h' : Den a k ks') : ks = ks' := by
  induction h generalizing ks' with
  | root hk hs =>
    cases h' with
    | root _ _ => rfl
    | leaf hk' hs' _ => rw [hk] at hk'; injection hk' with hk'; subst hk'; rw [hs] at hs'; cases hs'
    | node hk' hs' _ _ _ => rw [hk] at hk'; injection hk' with hk'; subst hk'; rw [hs] at hs'; cases hs'
  | leaf hk hs _ ih =>
    cases h' with
    | root hk' hs' => rw [hk] at hk'; injection hk' with hk'; subst hk'; rw [hs] at hs'; cases hs'
    | leaf hk' hs' hp =>
      rw [hk] at hk'; injection hk' with hk'; subst hk'; rw [hs] at hs'
      injection hs' with hs'; injection hs' with hs1 hs2; injection hs1 with hs1
      subst hs1 hs2
      rw [ih hp]
    | node hk' hs' _ _ _ =>
      rw [hk] at hk'; injection hk' with hk'; subst hk'; rw [hs] at hs'
      injection hs' with hs'; injection hs' with hs1 hs2; cases hs1
  | node hk hs _ hc _ ih1 ih2 =>
    cases h' with
    | root hk' hs' => rw [hk] at hk'; injection hk' with hk'; subst hk'; rw [hs] at hs'; cases hs'
    | leaf hk' hs' _ =>
      rw [hk] at hk'; injection hk' with hk'; subst hk'; rw [hs] at hs'
      injection hs' with hs'; injection hs' with hs1 hs2; cases hs1
    | node hk' hs' hp hc' hd' =>
      rw [hk] at hk'; injection hk' with hk'; subst hk'; rw [hs] at hs'
      injection hs' with hs'; injection hs' with hs1 hs2; injection hs1 with hs1
      subst hs1 hs2
      rw [hc] at hc'; injection hc' with hc'; subst hc'
      rw [ih1 hp, ih2 hd']

theorem snoc_inj {α : Type} {l l' : List α} {a b : α} (h : l ++ [a] = l' ++ [b]) : l = l' ∧ a = b := by
  have := List.append_inj' h rfl
  exact ⟨this.1, by simpa using this.2⟩

/-- Different entries denote different partial derivations. -/
theorem SInv.den_inj {pg input S t q} (h : SInv pg input S t q) {k : Nat} {ks} (hd : Den t.arena k ks) :
    ∀ {k' : Nat} {tr tr'}, Den t.arena k' ks → t.arena[k]? = some tr → t.arena[k']? = some tr' →
    tr.prodId = tr'.prodId → tr.range.start = tr'.range.start → k = k' := by
  induction hd with
  | @root k t0 hk hs =>
    intro k' tr tr' hd' hk1 hk1' hp hst
    rw [hk] at hk1; injection hk1 with hk1; subst hk1
    generalize hn : ([] : List DNode) = ks' at hd'
    cases hd' with
    | root hk' hs' =>
      rw [hk'] at hk1'; injection hk1' with hk1'; subst hk1'
      have h1 := (h.roots _ _ _).mpr ⟨_, hk, hs, rfl, rfl⟩
      have h2 := (h.roots _ _ _).mpr ⟨_, hk', hs', rfl, rfl⟩
      rw [hp, hst, h2] at h1
      injection h1 with h1; exact h1.symm
    | leaf _ _ _ => simp at hn
    | node _ _ _ _ _ => simp at hn
  | @leaf k t0 s par ks0 hk hs hdp ih =>
    intro k' tr tr' hd' hk1 hk1' hp hst
    rw [hk] at hk1; injection hk1 with hk1; subst hk1
    generalize hn : ks0 ++ [DNode.leaf s] = ks' at hd'
    cases hd' with
    | root _ _ => simp at hn
    | @leaf _ t1 s' par' ks1 hk' hs' hdp' =>
      rw [hk'] at hk1'; injection hk1' with hk1'; subst hk1'
      obtain ⟨e1, e2⟩ := snoc_inj hn
      injection e2 with e2
      subst e1 e2
      obtain ⟨_, _, tp, htp, a1, a2, _⟩ := (h.entries _ _ hk).link _ hs
      obtain ⟨_, _, tp', htp', b1, b2, _⟩ := (h.entries _ _ hk').link _ hs'
      have := ih hdp' htp htp' (by rw [← a1, ← b1, hp]) (by rw [← a2, ← b2, hst])
      subst this
      have h1 := (h.edges _ _).mpr ⟨_, hk, hs⟩
      have h2 := (h.edges _ _).mpr ⟨_, hk', hs'⟩
      rw [h2] at h1
      injection h1 with h1; exact h1.symm
    | node _ _ _ _ _ => have := (snoc_inj hn).2; cases this
  | @node k t0 c par ks0 tc kids hk hs hdp hc hdc ih1 ih2 =>
    intro k' tr tr' hd' hk1 hk1' hp hst
    rw [hk] at hk1; injection hk1 with hk1; subst hk1
    generalize hn : ks0 ++ [DNode.node tc.prodId kids] = ks' at hd'
    cases hd' with
    | root _ _ => simp at hn
    | leaf _ _ _ => have := (snoc_inj hn).2; cases this
    | @node _ t1 c' par' ks1 tc' kids' hk' hs' hdp' hc' hdc' =>
      rw [hk'] at hk1'; injection hk1' with hk1'; subst hk1'
      obtain ⟨e1, e2⟩ := snoc_inj hn
      injection e2 with e2 e3
      subst e1 e3
      obtain ⟨_, _, tp, htp, a1, a2, _, la⟩ := (h.entries _ _ hk).link _ hs
      obtain ⟨_, _, tp', htp', b1, b2, _, lb⟩ := (h.entries _ _ hk').link _ hs'
      have := ih1 hdp' htp htp' (by rw [← a1, ← b1, hp]) (by rw [← a2, ← b2, hst])
      subst this
      rw [htp] at htp'; injection htp' with htp'; subst htp'
      have hcs : tc.range.start = tc'.range.start := by
        simp only at la lb
        generalize t0.range.len = L at la
        generalize t0.unmatched = U at la
        generalize t1.range.len = L1 at lb
        generalize t1.unmatched = U1 at lb
        cases la with
        | nonterminal x1 x2 x3 x4 x5 x6 =>
          cases lb with
          | nonterminal y1 y2 y3 y4 y5 y6 =>
            rw [hc] at x1; injection x1 with x1; subst x1
            rw [hc'] at y1; injection y1 with y1; subst y1
            rw [x6, y6]
      have hcc := ih2 hdc' hc hc' e2 hcs
      subst hcc
      have h1 := (h.edges _ _).mpr ⟨_, hk, hs⟩
      have h2 := (h.edges _ _).mpr ⟨_, hk', hs'⟩
      rw [h2] at h1
      injection h1 with h1; exact h1.symm

end Bnf
