import Verif.Proofs.OrderPlain
import Verif.Proofs.Work
import Verif.Spec.Chart

/-! The traversal tree of the parser and the chart of the specification grow in step. -/

set_option autoImplicit false

namespace Bnf
open Spec

/-! ## Lists -/

theorem sorted_eq_filter {I : List Nat} {n : Nat} {q : Nat → Bool} (hs : I.Pairwise (· < ·)) (hm : ∀ k, k ∈ I ↔ k < n ∧ q k = true) :
    I = (List.range n).filter q := by
  have h2 : ((List.range n).filter q).Pairwise (· < ·) := List.pairwise_lt_range.filter _
  refine List.Perm.eq_of_pairwise (le := (· < ·)) (fun a b _ _ h h' => absurd h (Nat.lt_asymm h')) hs h2 ?_
  rw [List.perm_ext_iff_of_nodup (hs.imp (fun h => Nat.ne_of_lt h)) (h2.imp (fun h => Nat.ne_of_lt h))]
  intro k
  rw [hm, List.mem_filter, List.mem_range]

theorem filter_indices {α : Type} (l : List α) (P : α → Bool) :
    List.Forall₂ (fun k y => l[k]? = some y) ((List.range l.length).filter fun k => l[k]?.any P) (l.filter P) := by
  induction l using List.reverseRecOn with
  | nil => simp
  | append_singleton l a ih =>
    rw [List.length_append, List.length_singleton, List.range_succ, List.filter_append, List.filter_append]
    have h1 : (List.range l.length).filter (fun k => (l ++ [a])[k]?.any P) = (List.range l.length).filter (fun k => l[k]?.any P) := by
      apply List.filter_congr
      intro k hk
      rw [List.getElem?_append_left (List.mem_range.mp hk)]
    rw [h1]
    refine List.rel_append ?_ ?_
    · exact ih.imp fun k y h => getElem?_append_mono h
    · by_cases ha : P a = true
      · simp [ha]
      · simp [ha]

theorem forall₂_getElem? {α β : Type} {R : α → β → Prop} {l : List α} {l' : List β} (h : List.Forall₂ R l l') {j : Nat} {b : β}
    (hb : l'[j]? = some b) : ∃ a, l[j]? = some a ∧ R a b := by
  induction h generalizing j with
  | nil => simp at hb
  | cons h _ ih =>
    cases j with
    | zero => simp at hb; subst hb; exact ⟨_, rfl, h⟩
    | succ j => simpa using ih (by simpa using hb)

theorem getFrom_inj {s r : Str} {i j : Nat} (h : getFrom s i = some r) (h' : getFrom s j = some r) : i = j := by
  have := getFrom_len h
  have := getFrom_len h'
  omega

/-! ## What the loops add -/

theorem match_new {pg input S t q} (h : SInv pg input S t q) {k : Nat} {tp : Traversal} {m len rest}
    (hk : t.arena[k]? = some tp) (hl : Link pg input t.arena tp m len rest) (hf : t.edges.get ⟨m, k⟩ = none) :
    ∃ tr : Traversal, tr.src = some ⟨m, k⟩ ∧ t.matchTerm k m =
      some (t.arena.length, { t with arena := t.arena ++ [tr], edges := t.edges.set ⟨m, k⟩ t.arena.length }) := by
  have hok := h.entries k tp hk
  obtain ⟨T, hT⟩ := hl.unmatched
  have hget : t.get k = some tp := hk
  refine ⟨⟨t.arena.length, rest, ⟨input, tp.range.start, len⟩, tp.prodId, tp.isStarting, some ⟨m, k⟩⟩, rfl, ?_⟩
  unfold TravTree.matchTerm
  rw [hget]
  simp only [matchRange_ok h hk hl, hT, hok.id_eq, hf]

/-- Matches that have not been made before each add one traversal. -/
theorem matchAll_new {pg input S} (ms : List (Nat × TermMatch)) {t q} (h : SInv pg input S t q)
    (hm : ∀ x ∈ ms, ∃ tp len rest, t.arena[x.1]? = some tp ∧ Link pg input t.arena tp x.2 len rest)
    (hn : ms.Nodup) (hf : ∀ x ∈ ms, t.edges.get ⟨x.2, x.1⟩ = none) :
    ∃ t' q' new, matchAll ms t q = some (t', q') ∧ t'.arena = t.arena ++ new ∧
      new.map (·.src) = ms.map fun x => some ⟨x.2, x.1⟩ := by
  induction ms generalizing t q with
  | nil => exact ⟨t, q, [], rfl, by simp, rfl⟩
  | cons x xs ih =>
    obtain ⟨tp, len, rest, hx, hl⟩ := hm x (by simp)
    obtain ⟨tr, h1, h2⟩ := match_new h hx hl (hf x (by simp))
    obtain ⟨id, t1, e, h3, e1, r1⟩ := match_push h hx hl
    rw [h2] at e
    injection e with e
    injection e with e e'
    subst e
    obtain ⟨hnx, hnxs⟩ := List.nodup_cons.mp hn
    obtain ⟨t', q', new, h4, h5, h6⟩ := ih (t := t1) (q := q.pushBack t.arena.length) h3 (by
      intro y hy
      obtain ⟨tp, len, rest, hx, hl⟩ := hm y (by simp [hy])
      obtain ⟨new, hn⟩ := e1.arena
      exact ⟨tp, len, rest, e1.get hx, by rw [hn]; exact hl.mono⟩) hnxs (by
      intro y hy
      rw [← e', AMap.get_set, if_neg]
      · exact hf y (by simp [hy])
      · intro heq
        have e1 := congrArg Edge.term heq
        have e2 := congrArg Edge.parent heq
        simp only at e1 e2
        exact hnx (by rw [show x = y from Prod.ext e2 e1]; exact hy))
    refine ⟨t', q', tr :: new, ?_, ?_, ?_⟩
    · simp only [matchAll, h2]
      rw [e', h4]
    · rw [h5, ← e']; simp
    · simp [h1, h6]

/-- Predictions that were all made before change nothing. -/
theorem predictAll_old {pg input S t q} (h : SInv pg input S t q) {range : InputRange} {flag : Bool} (ps : List FlatProd)
    (ho : ∀ p ∈ ps, ∃ k, t.roots.get (p.id, range.totalLen) = some k) : predictAll range flag ps t q = (t, q) := by
  induction ps with
  | nil => rfl
  | cons p ps ih =>
    obtain ⟨k, hk⟩ := ho p (by simp)
    obtain ⟨tr, htr, _⟩ := (h.roots _ _ _).mp hk
    have hlt := (List.getElem?_eq_some_iff.mp htr).1
    simp only [predictAll]
    unfold TravTree.predict
    simp only [hk, pushBack_old h hlt]
    exact ih fun p' hp' => ho p' (by simp [hp'])

/-- Predictions of which none was made before each add one traversal. -/
theorem predictAll_new {range : InputRange} {flag : Bool} (ps : List FlatProd) (hps : ps.Pairwise fun p p' => p.id < p'.id) {t : TravTree}
    {q : TravQueue} (hf : ∀ p ∈ ps, t.roots.get (p.id, range.totalLen) = none) :
    ∃ new, (predictAll range flag ps t q).1.arena = t.arena ++ new ∧ (predictAll range flag ps t q).1.edges = t.edges ∧
      new.map (fun tr => (tr.src, tr.prodId, tr.range.start)) = ps.map fun p => (none, p.id, range.totalLen) := by
  induction ps generalizing t q with
  | nil => exact ⟨[], by simp [predictAll], rfl, rfl⟩
  | cons p ps ih =>
    obtain ⟨hp1, hp2⟩ := List.pairwise_cons.mp hps
    simp only [predictAll]
    unfold TravTree.predict
    simp only [hf p (by simp)]
    obtain ⟨new, h1, h2, h3⟩ := ih hp2 (t := ⟨t.arena ++ [⟨t.arena.length, p.rhs.terms, range.after, p.id, flag, none⟩],
      t.roots.set (p.id, range.totalLen) t.arena.length, t.edges⟩) (q := q.pushBack t.arena.length) (by
      intro p' hp'
      rw [AMap.get_set, if_neg]
      · exact hf p' (by simp [hp'])
      · intro heq
        have := (Prod.mk.injEq _ _ _ _ ▸ heq).1
        have := hp1 p' hp'
        omega)
    exact ⟨⟨t.arena.length, p.rhs.terms, range.after, p.id, flag, none⟩ :: new, by rw [h1]; simp, h2, by simp only [List.map_cons, h3]; rfl⟩

/-! ## Traversals and items -/

/-- The item of a traversal. -/
def Rel (pg : ParseGrammar) (input : Str) (a : List Traversal) (k : Nat) (x : ChartItem) : Prop :=
  ∃ tr p ks, a[k]? = some tr ∧ pg.productions[tr.prodId]? = some p ∧ Den a k ks ∧ x.lhs = p.lhs ∧ x.todo = tr.unmatched ∧
    x.kids = erase pg ks ∧ getFrom input tr.range.start = some x.start ∧ getFrom input tr.total = some x.rest

theorem Rel.mono {pg input} {a new : List Traversal} {k : Nat} {x : ChartItem} (h : Rel pg input a k x) : Rel pg input (a ++ new) k x := by
  obtain ⟨tr, p, ks, h1, h2, h3, h4⟩ := h
  exact ⟨tr, p, ks, getElem?_append_mono h1, h2, h3.mono, h4⟩

theorem rel_root {pg input S t q} (h : SInv pg input S t q) {k : Nat} {tr : Traversal} {p : FlatProd} {s : Str}
    (hk : t.arena[k]? = some tr) (hs : tr.src = none) (hp : pg.productions[tr.prodId]? = some p)
    (hf : getFrom input tr.range.start = some s) : Rel pg input t.arena k ⟨p.lhs, p.rhs.terms, [], s, s⟩ := by
  obtain ⟨h1, _, h2⟩ := (h.entries k tr hk).root hs
  refine ⟨tr, p, [], hk, hp, .root hk hs, rfl, (h2 p hp).symm, by simp [erase], hf, ?_⟩
  simp only [Traversal.total, InputRange.totalLen, h1, Nat.add_zero]
  exact hf

theorem rel_terminal {pg input S t q} (h : SInv pg input S t q) {k par : Nat} {tr : Traversal} {u : Str} {y : ChartItem}
    (hk : t.arena[k]? = some tr) (hs : tr.src = some ⟨.terminal u, par⟩) (hy : Rel pg input t.arena par y) :
    Rel pg input t.arena k (y.extend (.terminal u) (y.rest.drop u.length)) := by
  obtain ⟨_, _, tp, htp, e1, e2, e3, hl⟩ := (h.entries k tr hk).link _ hs
  obtain ⟨tp', p, ks, a1, a2, a3, a4, a5, a6, a7, a8⟩ := hy
  simp only at htp
  rw [a1] at htp; injection htp with htp; subst htp
  revert hl
  generalize hL : tr.range.len = L
  generalize hU : tr.unmatched = U
  intro hl
  cases hl with
  | @terminal s rest r hu hf =>
    refine ⟨tr, p, ks ++ [.leaf u], hk, by rw [e1]; exact a2, .leaf hk hs a3, a4, ?_, ?_, by rw [e2]; exact a7, ?_⟩
    · simp [ChartItem.extend, a5, hu, hU]
    · simp only [ChartItem.extend, a6, erase_snoc, eraseNode]
    · have hr : y.rest = u ++ r := by rw [a8] at hf; injection hf
      simp only [ChartItem.extend, hr, List.drop_left]
      have := getFrom_add hf
      simp only [Traversal.total, InputRange.totalLen, e2, hL] at this ⊢
      rw [← Nat.add_assoc]; exact this

theorem rel_nonterminal {pg input S t q} (h : SInv pg input S t q) {k par c : Nat} {tr : Traversal} {y z : ChartItem}
    (hk : t.arena[k]? = some tr) (hs : tr.src = some ⟨.nonterminal c, par⟩) (hy : Rel pg input t.arena par y) (hz : Rel pg input t.arena c z) :
    Rel pg input t.arena k (y.extendBy z) := by
  obtain ⟨_, _, tp, htp, e1, e2, e3, hl⟩ := (h.entries k tr hk).link _ hs
  obtain ⟨tp', p, ks, a1, a2, a3, a4, a5, a6, a7, a8⟩ := hy
  obtain ⟨tc', pc', kids, b1, b2, b3, b4, b5, b6, b7, b8⟩ := hz
  simp only at htp
  rw [a1] at htp; injection htp with htp; subst htp
  revert hl
  generalize hL : tr.range.len = L
  generalize hU : tr.unmatched = U
  intro hl
  cases hl with
  | @nonterminal _ tc pc n rest hc hcu hpc hn hu hst =>
    rw [b1] at hc; injection hc with hc; subst hc
    refine ⟨tr, p, ks ++ [.node tc'.prodId kids], hk, by rw [e1]; exact a2, .node hk hs a3 b1 b3, a4, ?_, ?_, by rw [e2]; exact a7, ?_⟩
    · simp [ChartItem.extendBy, ChartItem.extend, a5, hu, hU]
    · simp only [ChartItem.extendBy, ChartItem.extend, a6, erase_snoc, eraseNode, lhsOf_eq b2, b4, b6]
    · simp only [ChartItem.extendBy, ChartItem.extend]
      simp only [Traversal.total, InputRange.totalLen] at b8 hst ⊢
      rw [e2, hL, ← Nat.add_assoc, ← hst]; exact b8

/-! ## The simulation -/

/-- The parser's state corresponds to the chart after `h` items. -/
structure Sim (g : Grammar) (S : Term) (input : Str) (st : PState) (h : Nat) : Prop where
  inv : Inv (ParseGrammar.newUnchecked g) input S st
  ord : OInv st h
  len : (chart g S input h).length = st.tree.arena.length
  rel : ∀ (k : Nat) x, (chart g S input h)[k]? = some x → Rel (ParseGrammar.newUnchecked g) input st.tree.arena k x
  reason : ∀ (p i k : Nat) pr, st.tree.roots.get (p, i) = some k → (ParseGrammar.newUnchecked g).productions[p]? = some pr →
    (i = 0 ∧ pr.lhs = S) ∨ ∃ (w : Nat) (tw : Traversal) (n : Str) (rest : List Term), w < h ∧ st.tree.arena[w]? = some tw ∧
      pr.lhs = .nonterminal n ∧ tw.unmatched = .nonterminal n :: rest ∧ tw.total = i

theorem rel_append {pg input} {a new : List Traversal} {c Y : List ChartItem} (hlen : c.length = a.length)
    (hr : ∀ (k : Nat) x, c[k]? = some x → Rel pg input a k x)
    (hy : ∀ (j : Nat) y, Y[j]? = some y → Rel pg input (a ++ new) (a.length + j) y) (k : Nat) (x : ChartItem) (hx : (c ++ Y)[k]? = some x) :
    Rel pg input (a ++ new) k x := by
  rcases Nat.lt_or_ge k c.length with hk | hk
  · rw [List.getElem?_append_left hk] at hx
    exact (hr k x hx).mono
  · rw [List.getElem?_append_right hk] at hx
    have := hy _ _ hx
    rwa [hlen, Nat.add_sub_cancel' (by omega)] at this

section
variable {g : Grammar} {S : Term} {input : Str} {st : PState} {h : Nat}

/-- The item at an index below the arena's length. -/
theorem Sim.item (hs : Sim g S input st h) {k : Nat} {tr : Traversal} (hk : st.tree.arena[k]? = some tr) :
    ∃ x p, (chart g S input h)[k]? = some x ∧ Rel (ParseGrammar.newUnchecked g) input st.tree.arena k x ∧ x.todo = tr.unmatched ∧
      (ParseGrammar.newUnchecked g).productions[tr.prodId]? = some p ∧ x.lhs = p.lhs ∧
      getFrom input tr.range.start = some x.start ∧ getFrom input tr.total = some x.rest := by
  have hlt : k < (chart g S input h).length := by rw [hs.len]; exact (List.getElem?_eq_some_iff.mp hk).1
  obtain ⟨x, hx⟩ : ∃ x, (chart g S input h)[k]? = some x := ⟨_, List.getElem?_eq_getElem hlt⟩
  obtain ⟨tr', p, ks, a1, a2, a3, a4, a5, a6, a7, a8⟩ := hs.rel k x hx
  rw [hk] at a1; injection a1 with a1; subst a1
  exact ⟨x, p, hx, hs.rel k x hx, a5, a2, a4, a7, a8⟩

theorem take_get {α : Type} {l : List α} {h k : Nat} (hk : k < h) : (l.take h)[k]? = l[k]? := by
  rw [List.getElem?_take, if_pos hk]

/-- The waiting traversals in the index are those of the waiting items. -/
theorem Sim.waiting (hs : Sim g S input st h) {I : List Nat} (hI : I.Pairwise (· < ·)) {n : Str} {i : Nat} {s : Str}
    (hf : getFrom input i = some s)
    (hm : ∀ k, k ∈ I ↔ k < h ∧ ∃ t rest, st.tree.arena[k]? = some t ∧ t.unmatched = .nonterminal n :: rest ∧ t.total = i) :
    List.Forall₂ (fun k y => ((chart g S input h).take h)[k]? = some y) I (((chart g S input h).take h).filter fun w => w.waits n s) := by
  have hle := hs.ord.basic.hle
  have hl : ((chart g S input h).take h).length = h := by simp [hs.len, hle]
  rw [sorted_eq_filter (I := I) (n := ((chart g S input h).take h).length)
    (q := fun k => ((chart g S input h).take h)[k]?.any fun w => w.waits n s) hI (by
    intro k
    rw [hm, hl]
    refine and_congr_right fun hk => ?_
    obtain ⟨tr, htr⟩ : ∃ tr, st.tree.arena[k]? = some tr := ⟨_, List.getElem?_eq_getElem (by omega)⟩
    obtain ⟨x, p, h1, h2, h3, h4, h5, h6, h7⟩ := hs.item htr
    rw [take_get hk, h1]
    simp only [Option.any_some, ChartItem.waits, Bool.and_eq_true, beq_iff_eq, h3]
    constructor
    · rintro ⟨t, rest, ht, hu, htot⟩
      rw [htr] at ht; injection ht with ht; subst ht
      refine ⟨by simp [hu], ?_⟩
      rw [htot, hf] at h7; injection h7 with h7; exact h7.symm
    · rintro ⟨hu, hr⟩
      subst hr
      cases hc : tr.unmatched with
      | nil => simp [hc] at hu
      | cons T rest =>
        simp only [hc, List.head?_cons, Option.some.injEq] at hu
        exact ⟨tr, rest, htr, by rw [hc, hu], getFrom_inj h7 hf⟩)]
  exact filter_indices _ _

/-- The completed traversals in the index are those of the complete items. -/
theorem Sim.completed (hs : Sim g S input st h) {I : List Nat} (hI : I.Pairwise (· < ·)) {T : Term} {i : Nat} {s : Str}
    (hf : getFrom input i = some s)
    (hm : ∀ k, k ∈ I ↔ k < h ∧ ∃ t p, st.tree.arena[k]? = some t ∧ t.unmatched = [] ∧
      (ParseGrammar.newUnchecked g).productions[t.prodId]? = some p ∧ p.lhs = T ∧ t.range.start = i) :
    List.Forall₂ (fun k y => ((chart g S input h).take h)[k]? = some y) I (((chart g S input h).take h).filter fun c => c.complete T s) := by
  have hle := hs.ord.basic.hle
  have hl : ((chart g S input h).take h).length = h := by simp [hs.len, hle]
  rw [sorted_eq_filter (I := I) (n := ((chart g S input h).take h).length)
    (q := fun k => ((chart g S input h).take h)[k]?.any fun c => c.complete T s) hI (by
    intro k
    rw [hm, hl]
    refine and_congr_right fun hk => ?_
    obtain ⟨tr, htr⟩ : ∃ tr, st.tree.arena[k]? = some tr := ⟨_, List.getElem?_eq_getElem (by omega)⟩
    obtain ⟨x, p, h1, h2, h3, h4, h5, h6, h7⟩ := hs.item htr
    rw [take_get hk, h1]
    simp only [Option.any_some, ChartItem.complete, Bool.and_eq_true, beq_iff_eq, h3, List.isEmpty_iff, h5]
    constructor
    · rintro ⟨t, p', ht, hu, hp', hl', hst⟩
      rw [htr] at ht; injection ht with ht; subst ht
      rw [h4] at hp'; injection hp' with hp'; subst hp'
      refine ⟨⟨hu, hl'⟩, ?_⟩
      rw [hst, hf] at h6; injection h6 with h6; exact h6.symm
    · rintro ⟨⟨hu, hl'⟩, hr⟩
      subst hr
      exact ⟨tr, p, htr, hu, h4, hl', getFrom_inj h6 hf⟩)]
  exact filter_indices _ _

/-- Matches with the traversal being processed are new. -/
theorem OInv.fresh (hi : Inv (ParseGrammar.newUnchecked g) input S st) (ho : OInv st h) {e : Edge} (he : e.round = h) : st.tree.edges.get e = none := by
  cases hg : st.tree.edges.get e with
  | none => rfl
  | some k =>
    obtain ⟨tr, htr, hs⟩ := (hi.s.edges _ _).mp hg
    have := ho.past k tr e htr hs
    omega

theorem map_get {α β γ : Type} {f : α → γ} {k : β → γ} {l : List α} {l' : List β} (h : l.map f = l'.map k) {j : Nat} {b : β}
    (hb : l'[j]? = some b) : ∃ a, l[j]? = some a ∧ f a = k b := by
  have := congrArg (fun l => l[j]?) h
  simp only [List.getElem?_map, hb, Option.map_some, Option.map_eq_some_iff] at this
  exact this

/-- The next state of the simulation. -/
theorem Sim.grow (hs : Sim g S input st h) {st' : PState} {x : ChartItem} (hx : (chart g S input h)[h]? = some x)
    (hi : Inv (ParseGrammar.newUnchecked g) input S st') (ho : OInv st' (h + 1)) {new : List Traversal}
    (ha : st'.tree.arena = st.tree.arena ++ new)
    (hlen : (arising g S input ((chart g S input h).take h) x).length = new.length)
    (hrel : ∀ (j : Nat) y, (arising g S input ((chart g S input h).take h) x)[j]? = some y →
      Rel (ParseGrammar.newUnchecked g) input st'.tree.arena (st.tree.arena.length + j) y)
    (hreason : ∀ (p i k : Nat) pr, st'.tree.roots.get (p, i) = some k → (ParseGrammar.newUnchecked g).productions[p]? = some pr →
      st.tree.roots.get (p, i) = none → ∃ (tw : Traversal) (n : Str) (rest : List Term), st.tree.arena[h]? = some tw ∧
        pr.lhs = .nonterminal n ∧ tw.unmatched = .nonterminal n :: rest ∧ tw.total = i) :
    Sim g S input st' (h + 1) := by
  have hc : chart g S input (h + 1) = chart g S input h ++ arising g S input ((chart g S input h).take h) x := by
    rw [chart, hx]
  refine ⟨hi, ho, ?_, ?_, ?_⟩
  · rw [hc, ha, List.length_append, List.length_append, hlen, hs.len]
  · intro k y hy
    rw [hc] at hy
    rw [ha] at hrel ⊢
    exact rel_append hs.len hs.rel hrel k y hy
  · intro p i k pr h1 h2
    cases h3 : st.tree.roots.get (p, i) with
    | some k' =>
      rcases hs.reason p i k' pr h3 h2 with h4 | ⟨w, tw, n, rest, hw, h4, h5⟩
      · exact .inl h4
      · exact .inr ⟨w, tw, n, rest, by omega, by rw [ha]; exact getElem?_append_mono h4, h5⟩
    | none =>
      obtain ⟨tw, n, rest, h4, h5⟩ := hreason p i k pr h1 h2 h3
      exact .inr ⟨h, tw, n, rest, by omega, by rw [ha]; exact getElem?_append_mono h4, h5⟩

/-- One round of the loop treats one item. -/
theorem Sim.step (hs : Sim g S input st h) {id : Nat} {rest : List Nat} {st' : PState} {b : Bool}
    (hq : st.queue.queue = id :: rest) (hr : earleyRound (ParseGrammar.newUnchecked g) (st.pop rest) id = some (st', b)) :
    Sim g S input st' (h + 1) ∧ id = h ∧ ∃ x, (chart g S input h)[h]? = some x ∧
      (b = true ↔ (x.complete S input && x.rest.isEmpty) = true) := by
  have hpg := PGOk.newUnchecked g
  have ho' := hs.ord.round hs.inv hq hr
  obtain ⟨st1, b1, e1, hi', he, _, hb⟩ := hs.inv.round hpg hq
  rw [hr] at e1
  simp only [Option.some.injEq, Prod.mk.injEq] at e1
  obtain ⟨rfl, rfl⟩ := e1
  obtain ⟨rfl, hlt, hrest⟩ := hs.ord.head hq
  obtain ⟨tr, htr⟩ : ∃ tr, st.tree.arena[id]? = some tr := ⟨_, List.getElem?_eq_getElem hlt⟩
  obtain ⟨x, p, hx, hrx, hxu, hp, hxl, hxs, hxr⟩ := hs.item htr
  have hs0 := hs.inv.s.pop hq
  have hok := hs.inv.s.entries id tr htr
  have hget : (st.pop rest).tree.get id = some tr := htr
  have hpid : (ParseGrammar.newUnchecked g).prodById tr.prodId = some p := hp
  have hcins := hs.inv.c.insert htr hok.id_eq hp
  obtain ⟨r0, hr0⟩ := hs.inv.s.total_ok htr
  refine ⟨?_, rfl, x, hx, ?_⟩
  swap
  · rw [hb]
    simp only [ChartItem.complete, Bool.and_eq_true, List.isEmpty_iff, beq_iff_eq]
    constructor
    · rintro ⟨tr', p', h1, h2, h3, h4, h5, h6⟩
      rw [htr] at h1; injection h1 with h1; subst h1
      rw [hp] at h3; injection h3 with h3; subst h3
      rw [h5, getFrom_zero] at hxs
      injection hxs with hxs
      refine ⟨⟨⟨by rw [hxu, h2], by rw [hxl, h4]⟩, hxs.symm⟩, ?_⟩
      have := getFrom_len hxr
      simp only [Traversal.total, InputRange.totalLen] at this
      exact byteLen_eq_zero (by omega)
    · rintro ⟨⟨⟨h1, h2⟩, h3⟩, h4⟩
      have h5 : tr.range.start = 0 := getFrom_inj hxs (by rw [h3, getFrom_zero])
      refine ⟨tr, p, htr, by rw [← hxu, h1], hp, by rw [← hxl, h2], h5, ?_⟩
      have := getFrom_len hxr
      simp only [Traversal.total, InputRange.totalLen, h4] at this
      have h0 : byteLen [] = 0 := rfl
      omega
  unfold earleyRound at hr
  rw [hget] at hr
  simp only [Traversal.nextUnmatched] at hr
  cases hu : tr.unmatched with
  | nil =>
    simp only [hu, List.head?_nil, hpid] at hr
    have hinc : ∀ i, i ∈ ((st.pop rest).completions.insert tr p.lhs).getIncomplete p.lhs tr ↔ i < id ∧
        ∃ t n rst, st.tree.arena[i]? = some t ∧ t.unmatched = .nonterminal n :: rst ∧ p.lhs = .nonterminal n ∧ t.total = tr.range.start := by
      intro i
      unfold CompletionMap.getIncomplete
      simp only [PState.pop]
      rw [hcins.inc]
      constructor
      · rintro ⟨h1 | rfl, t, n, rst, ht, htu, h2⟩
        · exact ⟨(hs.ord.popped i).mp h1, t, n, rst, ht, htu, h2⟩
        · rw [htr] at ht; injection ht with ht; subst ht; rw [hu] at htu; cases htu
      · rintro ⟨h1, h2⟩
        exact ⟨.inl ((hs.ord.popped i).mpr h1), h2⟩
    have hsort : (((st.pop rest).completions.insert tr p.lhs).getIncomplete p.lhs tr).Pairwise (· < ·) :=
      hcins.incS (p.lhs, tr.range.start)
    revert hr hinc hsort
    generalize ((st.pop rest).completions.insert tr p.lhs).getIncomplete p.lhs tr = I
    intro hr hinc hsort
    obtain ⟨t', q', new, h1, h2, h3⟩ := matchAll_new (I.map fun i => (i, TermMatch.nonterminal id)) hs0 (by
      intro y hy
      obtain ⟨i, hi, rfl⟩ := List.mem_map.mp hy
      obtain ⟨_, t, n, rst, ht, htu, hl, htot⟩ := (hinc i).mp hi
      exact ⟨t, _, rst, ht, .nonterminal htr hu hp hl htu htot.symm⟩) (by
      refine List.Nodup.map (fun a b hab => (Prod.mk.injEq _ _ _ _ ▸ hab).1) (hsort.imp fun h => Nat.ne_of_lt h)) (by
      intro y hy
      obtain ⟨i, hi, rfl⟩ := List.mem_map.mp hy
      have := ((hinc i).mp hi).1
      refine OInv.fresh hs.inv hs.ord ?_
      simp only [Edge.round, TermMatch.child]
      omega)
    have hroots := (matchAll_roots _ h1).1
    rw [h1] at hr
    simp only [Option.some.injEq, Prod.mk.injEq] at hr
    obtain ⟨rfl, _⟩ := hr
    obtain ⟨W, hfor, har⟩ : ∃ W, List.Forall₂ (fun k y => ((chart g S input id).take id)[k]? = some y) I W ∧
        arising g S input ((chart g S input id).take id) x = W.map fun w => w.extendBy x := by
      cases hn : x.lhs with
      | terminal u =>
        have : I = [] := by
          apply List.eq_nil_iff_forall_not_mem.mpr
          intro i hi
          obtain ⟨_, _, n, _, _, _, hl, _⟩ := (hinc i).mp hi
          rw [← hxl, hn] at hl; cases hl
        rw [this]
        exact ⟨[], .nil, by simp [arising, hxu, hu, hn]⟩
      | nonterminal n =>
        refine ⟨((chart g S input id).take id).filter fun w => w.waits n x.start, hs.waiting hsort hxs fun k => ?_, by
          simp only [arising, hxu, hu, hn]⟩
        rw [hinc]
        refine and_congr_right fun _ => ⟨?_, ?_⟩
        · rintro ⟨t, n', rst, a1, a2, a3, a4⟩
          rw [← hxl, hn] at a3; injection a3 with a3; subst a3
          exact ⟨t, rst, a1, a2, a4⟩
        · rintro ⟨t, rst, a1, a2, a4⟩
          exact ⟨t, n, rst, a1, a2, by rw [← hxl, hn], a4⟩
    have hnl : new.length = I.length := by have := congrArg List.length h3; simpa using this
    refine hs.grow hx hi' ho' h2 ?_ ?_ ?_
    · rw [har, List.length_map, hnl, hfor.length_eq]
    · intro j y hy
      rw [har, List.getElem?_map, Option.map_eq_some_iff] at hy
      obtain ⟨w, hw, rfl⟩ := hy
      obtain ⟨k, hk, hkw⟩ := forall₂_getElem? hfor hw
      rw [List.map_map] at h3
      obtain ⟨trj, hj, hsrc⟩ := map_get h3 hk
      have hk' : k < id := ((hinc k).mp (List.mem_of_getElem? hk)).1
      rw [take_get hk'] at hkw
      refine rel_nonterminal hi'.s (k := st.tree.arena.length + j) (par := k) (c := id) (tr := trj) ?_ hsrc ?_ ?_
      · simp only [h2, PState.pop]
        rw [List.getElem?_append_right (by omega)]
        simpa using hj
      · simp only [h2, PState.pop]; exact (hs.rel k w hkw).mono
      · simp only [h2, PState.pop]; exact hrx.mono
    · intro p i k pr a1 _ a2
      simp only [hroots, PState.pop] at a1
      rw [a2] at a1; cases a1
  | cons T ts =>
    cases T with
    | terminal s =>
      simp only [hu, List.head?_cons] at hr
      have hnext : tr.range.next = x.rest := by
        unfold InputRange.next
        rw [hok.input_eq]
        simp only [Traversal.total, InputRange.totalLen] at hxr
        rw [hxr]; rfl
      have har : arising g S input ((chart g S input id).take id) x =
          if s.isPrefixOf x.rest then [x.extend (.terminal s) (x.rest.drop s.length)] else [] := by
        unfold arising
        simp only [hxu, hu]
      by_cases hsw : startsWith tr.range.next s = true
      · rw [if_pos hsw] at hr
        obtain ⟨r, hr'⟩ := startsWith_iff.mp hsw
        rw [hnext] at hr'
        have hpre : s.isPrefixOf x.rest = true := by rw [List.isPrefixOf_iff_prefix]; exact ⟨r, hr'.symm⟩
        rw [if_pos hpre] at har
        obtain ⟨t', q', new, h1, h2, h3⟩ := matchAll_new [(id, TermMatch.terminal s)] hs0 (by
          intro y hy
          simp only [List.mem_singleton] at hy
          subst hy
          exact ⟨tr, _, ts, htr, .terminal hu (by rw [hxr, hr'])⟩) (by simp) (by
          intro y hy
          simp only [List.mem_singleton] at hy
          subst hy
          refine OInv.fresh hs.inv hs.ord ?_
          simp [Edge.round, TermMatch.child])
        have hroots := (matchAll_roots _ h1).1
        rw [h1] at hr
        simp only [Option.some.injEq, Prod.mk.injEq] at hr
        obtain ⟨rfl, _⟩ := hr
        have hnl : new.length = 1 := by have := congrArg List.length h3; simpa using this
        refine hs.grow hx hi' ho' h2 ?_ ?_ ?_
        · rw [har, hnl]; rfl
        · intro j y hy
          rw [har] at hy
          obtain ⟨rfl, rfl⟩ : j = 0 ∧ x.extend (.terminal s) (x.rest.drop s.length) = y := by
            cases j with
            | zero => simpa using hy
            | succ j => simp at hy
          obtain ⟨trj, hj, hsrc⟩ := map_get h3 (j := 0) rfl
          refine rel_terminal hi'.s (k := st.tree.arena.length + 0) (par := id) (tr := trj) ?_ hsrc ?_
          · simp only [h2, PState.pop]
            rw [List.getElem?_append_right (by omega)]
            simpa using hj
          · simp only [h2, PState.pop]; exact hrx.mono
        · intro p i k pr a1 _ a2
          simp only [hroots, PState.pop] at a1
          rw [a2] at a1; cases a1
      · rw [if_neg hsw] at hr
        simp only [Option.some.injEq, Prod.mk.injEq] at hr
        obtain ⟨rfl, _⟩ := hr
        have hpre : ¬ s.isPrefixOf x.rest = true := by
          intro hpre
          rw [List.isPrefixOf_iff_prefix] at hpre
          obtain ⟨r, hr'⟩ := hpre
          exact hsw (startsWith_iff.mpr ⟨r, by rw [hnext, hr']⟩)
        rw [if_neg hpre] at har
        refine hs.grow (new := []) hx hi' ho' (by simp [PState.pop]) (by rw [har]; rfl) ?_ ?_
        · intro j y hy; rw [har] at hy; simp at hy
        · intro p i k pr a1 _ a2
          simp only [PState.pop] at a1
          rw [a2] at a1; cases a1
    | nonterminal n =>
      simp only [hu, List.head?_cons, hpid, hpg.prodsFor] at hr
      have hcom : ∀ i, i ∈ ((st.pop rest).completions.insert tr p.lhs).getComplete (.nonterminal n) tr.range ↔ i < id ∧
          ∃ t p, st.tree.arena[i]? = some t ∧ t.unmatched = [] ∧ (ParseGrammar.newUnchecked g).productions[t.prodId]? = some p ∧
            p.lhs = .nonterminal n ∧ t.range.start = tr.total := by
        intro i
        unfold CompletionMap.getComplete
        simp only [PState.pop]
        rw [hcins.com]
        constructor
        · rintro ⟨h1 | rfl, t, p, ht, htu, h2⟩
          · exact ⟨(hs.ord.popped i).mp h1, t, p, ht, htu, h2⟩
          · rw [htr] at ht; injection ht with ht; subst ht; rw [hu] at htu; cases htu
        · rintro ⟨h1, h2⟩
          exact ⟨.inl ((hs.ord.popped i).mpr h1), h2⟩
      have hsort : (((st.pop rest).completions.insert tr p.lhs).getComplete (.nonterminal n) tr.range).Pairwise (· < ·) :=
        hcins.comS (.nonterminal n, tr.range.totalLen)
      obtain ⟨hs1, he1, hroots1⟩ := predictAll_inv hpg (range := tr.range) (flag := false) hok.input_eq
        ⟨r0, hr0⟩ ((ParseGrammar.newUnchecked g).productions.filter (fun p => p.lhs = .nonterminal n)) hs0
        (fun p hp => (List.mem_filter.mp hp).1) (by
          intro p' hp' t'' q'' he'' hs'' hnone
          have hp'' := List.mem_filter.mp hp'
          simp at hp''
          obtain ⟨i, hi⟩ := List.mem_iff_getElem?.mp hp''.1
          constructor
          · intro hc; cases hc
          · rintro ⟨h0, hS⟩
            obtain ⟨k, hk⟩ := hs.inv.startRoots i p' hi hS
            have := hs0.roots_mono hs'' he'' hk
            rw [h0, hpg.id_eq i p' hi, this] at hnone
            cases hnone) (by
          intro p' hp'
          have hp'' := List.mem_filter.mp hp'
          simp at hp''
          exact .inr ⟨id, tr, n, ts, hlt, htr, hp''.2, hu, rfl⟩)
      -- the predictions
      have hmem : ∀ {p'}, p' ∈ (ParseGrammar.newUnchecked g).productions.filter (fun p => p.lhs = .nonterminal n) →
          (ParseGrammar.newUnchecked g).productions[p'.id]? = some p' ∧ p'.lhs = .nonterminal n := by
        intro p' hp'
        have hp'' := List.mem_filter.mp hp'
        simp only [decide_eq_true_eq] at hp''
        obtain ⟨i, hi⟩ := List.mem_iff_getElem?.mp hp''.1
        rw [hpg.id_eq i p' hi]
        exact ⟨hi, hp''.2⟩
      have hpred : ∃ new1, (predictAll tr.range false ((ParseGrammar.newUnchecked g).productions.filter (fun p => p.lhs = .nonterminal n))
            (st.pop rest).tree (st.pop rest).queue).1.arena = st.tree.arena ++ new1 ∧
          (predictAll tr.range false ((ParseGrammar.newUnchecked g).productions.filter (fun p => p.lhs = .nonterminal n))
            (st.pop rest).tree (st.pop rest).queue).1.edges = st.tree.edges ∧
          (if (Term.nonterminal n = S ∧ x.rest = input) ∨ ((chart g S input id).take id).any fun w => w.waits n x.rest then []
            else Spec.begin g (.nonterminal n) x.rest).length = new1.length ∧
          (∀ (j : Nat) y, (if (Term.nonterminal n = S ∧ x.rest = input) ∨ ((chart g S input id).take id).any fun w => w.waits n x.rest then []
            else Spec.begin g (.nonterminal n) x.rest)[j]? = some y → ∃ trj pr, new1[j]? = some trj ∧ trj.src = none ∧
              (ParseGrammar.newUnchecked g).productions[trj.prodId]? = some pr ∧ trj.range.start = tr.total ∧
              y = ⟨pr.lhs, pr.rhs.terms, [], x.rest, x.rest⟩) := by
        by_cases hc : (Term.nonterminal n = S ∧ x.rest = input) ∨ (((chart g S input id).take id).any fun w => w.waits n x.rest) = true
        · rw [if_pos hc]
          refine ⟨[], ?_⟩
          rw [predictAll_old hs0 _ (by
            intro p' hp'
            obtain ⟨h1, h2⟩ := hmem hp'
            rcases hc with ⟨h3, h4⟩ | hc
            · obtain ⟨k, hk⟩ := hs.inv.startRoots p'.id p' h1 (by rw [h2, h3])
              have : tr.range.totalLen = 0 := getFrom_inj hxr (by rw [h4, getFrom_zero])
              exact ⟨k, by rw [this]; exact hk⟩
            · obtain ⟨w, hw, hwt⟩ := List.any_eq_true.mp hc
              obtain ⟨k, hk⟩ := List.mem_iff_getElem?.mp hw
              have hkid : k < id := by
                have := (List.getElem?_eq_some_iff.mp hk).1
                simp only [List.length_take] at this; omega
              rw [take_get hkid] at hk
              obtain ⟨tw, pw, ks, b1, b2, b3, b4, b5, b6, b7, b8⟩ := hs.rel k w hk
              simp only [ChartItem.waits, Bool.and_eq_true, beq_iff_eq] at hwt
              rw [b5] at hwt
              cases htw : tw.unmatched with
              | nil => simp [htw] at hwt
              | cons T rs =>
                simp only [htw, List.head?_cons, Option.some.injEq] at hwt
                rw [hwt.2] at b8
                obtain ⟨k', hk'⟩ := hs.inv.k.pred k tw n rs p'.id p' ((hs.ord.popped k).mpr hkid) b1 (by rw [htw, hwt.1]) h1 h2
                exact ⟨k', by rw [getFrom_inj b8 hxr] at hk'; exact hk'⟩)]
          exact ⟨by simp [PState.pop], rfl, rfl, by intro j y hy; simp at hy⟩
        · rw [if_neg hc]
          obtain ⟨new, h1, h2, h3⟩ := predictAll_new (range := tr.range) (flag := false)
            ((ParseGrammar.newUnchecked g).productions.filter (fun p => p.lhs = .nonterminal n)) ((prods_sorted hpg).filter _)
            (t := (st.pop rest).tree) (q := (st.pop rest).queue) (by
            intro p' hp'
            obtain ⟨h1, h2⟩ := hmem hp'
            cases hg : (st.pop rest).tree.roots.get (p'.id, tr.range.totalLen) with
            | none => rfl
            | some k =>
              refine absurd ?_ hc
              rcases hs.reason _ _ k p' hg h1 with ⟨h3, h4⟩ | ⟨w, tw, n', rs, hw, h3, h4, h5, h6⟩
              · left
                refine ⟨by rw [← h2, h4], ?_⟩
                simp only [Traversal.total] at hxr
                rw [h3, getFrom_zero] at hxr; injection hxr with hxr; exact hxr.symm
              · right
                rw [h2] at h4; injection h4 with h4; subst h4
                obtain ⟨y, py, c1, c2, c3, c4, c5, c6, c7⟩ := hs.item h3
                refine List.any_eq_true.mpr ⟨y, List.mem_iff_getElem?.mpr ⟨w, by rw [take_get hw]; exact c1⟩, ?_⟩
                simp only [ChartItem.waits, Bool.and_eq_true, beq_iff_eq, c3, h5, List.head?_cons, true_and]
                rw [h6] at c7
                simp only [Traversal.total] at hxr
                rw [hxr] at c7; injection c7 with c7; exact c7.symm)
          refine ⟨new, h1, h2, ?_, ?_⟩
          · have := congrArg List.length h3
            simp only [List.length_map] at this
            rw [this]
            simp only [Spec.begin, listed_eq, List.length_map]
          · intro j y hy
            simp only [Spec.begin, listed_eq, List.map_map, List.getElem?_map, Option.map_eq_some_iff] at hy
            obtain ⟨pr, hpr, rfl⟩ := hy
            obtain ⟨trj, hj, hsrc⟩ := map_get h3 hpr
            simp only [Prod.mk.injEq] at hsrc
            obtain ⟨d1, d2⟩ := hmem (List.mem_of_getElem? hpr)
            refine ⟨trj, pr, hj, hsrc.1, by rw [hsrc.2.1]; exact d1, hsrc.2.2, ?_⟩
            simp only [Function.comp, d2]
      have hproots := predictAll_roots (range := tr.range) (flag := false)
        ((ParseGrammar.newUnchecked g).productions.filter (fun p => p.lhs = .nonterminal n)) ((prods_sorted hpg).filter _)
        (t := (st.pop rest).tree) (q := (st.pop rest).queue)
      have har : arising g S input ((chart g S input id).take id) x =
          (if (Term.nonterminal n = S ∧ x.rest = input) ∨ ((chart g S input id).take id).any fun w => w.waits n x.rest then []
            else Spec.begin g (.nonterminal n) x.rest) ++
          (((chart g S input id).take id).filter fun c => c.complete (.nonterminal n) x.rest).map fun c => x.extendBy c := by
        unfold arising
        simp only [hxu, hu]
      have hfor : List.Forall₂ (fun k y => ((chart g S input id).take id)[k]? = some y)
          (((st.pop rest).completions.insert tr p.lhs).getComplete (.nonterminal n) tr.range)
          (((chart g S input id).take id).filter fun c => c.complete (.nonterminal n) x.rest) :=
        hs.completed hsort hxr hcom
      obtain ⟨_, _, hpnew, _⟩ := hproots
      revert hr hcom hsort hs1 he1 hpred hpnew har hfor
      generalize ((st.pop rest).completions.insert tr p.lhs).getComplete (.nonterminal n) tr.range = I
      generalize ((chart g S input id).take id).filter (fun c => c.complete (.nonterminal n) x.rest) = W
      generalize (if (Term.nonterminal n = S ∧ x.rest = input) ∨ ((chart g S input id).take id).any fun w => w.waits n x.rest then []
            else Spec.begin g (.nonterminal n) x.rest) = Y1
      intro hr hcom hsort hs1 he1 ⟨new1, a1, a2, a3, a4⟩ har hfor hpnew
      obtain ⟨t', q', new, h1, h2, h3⟩ := matchAll_new (I.map fun c => (id, TermMatch.nonterminal c)) hs1 (by
        intro y hy
        obtain ⟨c, hc, rfl⟩ := List.mem_map.mp hy
        obtain ⟨_, t, pc, ht, htu, hpc, hl, htot⟩ := (hcom c).mp hc
        exact ⟨tr, _, ts, he1.get htr, .nonterminal (he1.get ht) htu hpc hl hu htot⟩) (by
        refine List.Nodup.map (fun a b hab => ?_) (hsort.imp fun h => Nat.ne_of_lt h)
        have := (Prod.mk.injEq _ _ _ _ ▸ hab).2
        injection this) (by
        intro y hy
        obtain ⟨i, hi, rfl⟩ := List.mem_map.mp hy
        have := ((hcom i).mp hi).1
        rw [a2]
        refine OInv.fresh hs.inv hs.ord ?_
        simp only [Edge.round, TermMatch.child]
        omega)
      have hroots := (matchAll_roots _ h1).1
      rw [h1] at hr
      simp only [Option.some.injEq, Prod.mk.injEq] at hr
      obtain ⟨rfl, _⟩ := hr
      have hnl : new.length = I.length := by have := congrArg List.length h3; simpa using this
      rw [a1] at h2
      refine hs.grow (new := new1 ++ new) hx hi' ho' (by rw [← List.append_assoc]; exact h2) ?_ ?_ ?_
      · rw [har, List.length_append, List.length_append, List.length_map, hnl, a3, hfor.length_eq]
      · intro j y hy
        rw [har] at hy
        rcases Nat.lt_or_ge j Y1.length with hj | hj
        · rw [List.getElem?_append_left hj] at hy
          obtain ⟨trj, pr, d1, d2, d3, d4, rfl⟩ := a4 j y hy
          refine rel_root hi'.s (k := st.tree.arena.length + j) (tr := trj) ?_ d2 d3 (by rw [d4]; exact hxr)
          simp only [h2]
          rw [List.append_assoc, List.getElem?_append_right (by omega), Nat.add_sub_cancel_left]
          exact getElem?_append_mono d1
        · rw [List.getElem?_append_right hj, List.getElem?_map, Option.map_eq_some_iff] at hy
          obtain ⟨w, hw, rfl⟩ := hy
          obtain ⟨k, hk, hkw⟩ := forall₂_getElem? hfor hw
          rw [List.map_map] at h3
          obtain ⟨trj, hj', hsrc⟩ := map_get h3 hk
          have hk' : k < id := ((hcom k).mp (List.mem_of_getElem? hk)).1
          rw [take_get hk'] at hkw
          refine rel_nonterminal hi'.s (k := st.tree.arena.length + j) (par := id) (c := k) (tr := trj) ?_ hsrc ?_ ?_
          · simp only [h2]
            rw [List.append_assoc, List.getElem?_append_right (by omega), Nat.add_sub_cancel_left,
              List.getElem?_append_right (by omega), ← a3]
            exact hj'
          · simp only [h2, List.append_assoc]; exact hrx.mono
          · simp only [h2, List.append_assoc]; exact (hs.rel k w hkw).mono
      · intro p i k pr b1 b2 b3
        simp only [hroots] at b1
        obtain ⟨_, p', hp', heq⟩ := hpnew _ _ b3 b1
        obtain ⟨d1, d2⟩ := hmem hp'
        simp only [Prod.mk.injEq] at heq
        rw [heq.1, d1] at b2; injection b2 with b2; subst b2
        exact ⟨tr, n, ts, htr, d2, hu, heq.2.symm⟩

/-! ## Runs -/

theorem chart_prefix (g : Grammar) (S : Term) (input : Str) (h : Nat) : chart g S input h <+: chart g S input (h + 1) := by
  rw [chart]
  split
  · exact List.prefix_refl _
  · exact List.prefix_append _ _

theorem chart_of_none {x : Option ChartItem} (hx : (chart g S input h)[h]? = x) (hn : x = none) (d : Nat) :
    chart g S input (h + d) = chart g S input h := by
  subst hn
  induction d with
  | zero => rfl
  | succ d ih =>
    rw [← Nat.add_assoc, chart, ih]
    have : (chart g S input h)[h + d]? = none := by
      rw [List.getElem?_eq_none_iff] at hx ⊢; omega
    rw [this]

/-- After the last item nothing changes. -/
theorem chart_end (hl : (chart g S input h).length ≤ h) {h' : Nat} (hh : h ≤ h') :
    chart g S input h' = chart g S input h ∧ found g S input h' = found g S input h := by
  obtain ⟨d, rfl⟩ := Nat.exists_eq_add_of_le hh
  have := chart_of_none (g := g) (S := S) (input := input) rfl (List.getElem?_eq_none_iff.mpr hl) d
  refine ⟨this, ?_⟩
  unfold found
  rw [this, List.take_of_length_le (by omega), List.take_of_length_le hl]

theorem found_succ {x : ChartItem} (hx : (chart g S input h)[h]? = some x) :
    found g S input (h + 1) = found g S input h ++
      if (x.complete S input && x.rest.isEmpty) = true then [⟨x.lhs, x.kids⟩] else [] := by
  unfold found
  obtain ⟨l, hl⟩ := chart_prefix g S input h
  have hlt := (List.getElem?_eq_some_iff.mp hx).1
  have : (chart g S input (h + 1)).take (h + 1) = (chart g S input h).take h ++ [x] := by
    rw [← hl, List.take_append_of_le_length (by omega), List.take_add_one, hx]
    rfl
  rw [this, List.filter_append, List.map_append]
  congr 1
  rw [List.filter_cons]
  split <;> rfl

theorem found_prefix {h' : Nat} (hh : h ≤ h') : found g S input h <+: found g S input h' := by
  induction hh with
  | refl => exact List.prefix_refl _
  | @step m _ ih =>
    cases hx : (chart g S input m)[m]? with
    | none =>
      rw [(chart_end (List.getElem?_eq_none_iff.mp hx) (Nat.le_succ m)).2]; exact ih
    | some x => rw [found_succ hx]; exact ih.trans (List.prefix_append _ _)

theorem Rel.treeOf {k : Nat} {x : ChartItem} (hr : Rel (ParseGrammar.newUnchecked g) input st.tree.arena k x) :
    TreeOf g st k ⟨x.lhs, x.kids⟩ := by
  obtain ⟨tr, p, ks, a1, a2, a3, a4, a5, a6, _⟩ := hr
  exact ⟨tr, ks, a1, a3, by rw [lhsOf_eq a2, a4, a6]⟩

/-- Rounds add the trees of the ids they emit. -/
theorem Sim.rounds {ems : List Nat} {st' : PState} (hr : Rounds (ParseGrammar.newUnchecked g) st ems st') {h : Nat}
    (hs : Sim g S input st h) : ∃ h' ts, h ≤ h' ∧ Sim g S input st' h' ∧ found g S input h' = found g S input h ++ ts ∧
      List.Forall₂ (TreeOf g st') ems ts := by
  induction hr generalizing h with
  | refl => exact ⟨h, [], Nat.le_refl _, hs, by simp, .nil⟩
  | quiet hq hr _ ih =>
    obtain ⟨h1, _, x, hx, hb⟩ := hs.step hq hr
    obtain ⟨h', ts, h2, h3, h4, h5⟩ := ih h1
    refine ⟨h', ts, by omega, h3, ?_, h5⟩
    rw [h4, found_succ hx, if_neg (by rw [← hb]; simp), List.append_nil]
  | emit hq hr hrs ih =>
    obtain ⟨h1, heq, x, hx, hb⟩ := hs.step hq hr
    rw [heq]
    obtain ⟨h', ts, h2, h3, h4, h5⟩ := ih h1
    refine ⟨h', ⟨x.lhs, x.kids⟩ :: ts, by omega, h3, ?_, .cons ?_ h5⟩
    · rw [h4, found_succ hx, if_pos (hb.mp rfl), List.append_assoc]; rfl
    · have hl := (hrs.inv (PGOk.newUnchecked g) h1.inv).2.1
      refine (h1.rel _ x ?_).treeOf.later hl
      obtain ⟨l, hl⟩ := chart_prefix g S input h
      rw [← hl]; exact getElem?_append_mono hx

theorem Sim.len_ge (hs : Sim g S input st h) : h ≤ (chart g S input h).length := by
  rw [hs.len]; exact hs.ord.basic.hle

theorem Sim.queue_nil (hs : Sim g S input st h) : st.queue.queue = [] ↔ (chart g S input h).length = h := by
  have := hs.len_ge
  rw [hs.ord.basic.queue, List.range'_eq_nil_iff, hs.len] at *
  omega

/-- Every number of items is treated after some rounds, or the queue is empty before. -/
theorem Sim.reach {h0 : Nat} (hs : Sim g S input st h0) (d : Nat) : ∃ ems st' h', Rounds (ParseGrammar.newUnchecked g) st ems st' ∧
    Sim g S input st' h' ∧ (h' = h0 + d ∨ h' ≤ h0 + d ∧ st'.queue.queue = []) := by
  induction d with
  | zero => exact ⟨[], st, h0, .refl, hs, .inl rfl⟩
  | succ d ih =>
    obtain ⟨ems, st', h', h1, h2, h3⟩ := ih
    cases hq : st'.queue.queue with
    | nil => exact ⟨ems, st', h', h1, h2, .inr ⟨by rcases h3 with h3 | h3 <;> omega, hq⟩⟩
    | cons id rest =>
      obtain rfl : h' = h0 + d := by
        rcases h3 with h3 | ⟨_, h3⟩
        · exact h3
        · rw [hq] at h3; cases h3
      obtain ⟨st1, b, e1, _⟩ := h2.inv.round (PGOk.newUnchecked g) hq
      obtain ⟨h4, _⟩ := h2.step hq e1
      cases b with
      | false => exact ⟨ems ++ [], st1, _, h1.trans (.quiet hq e1 .refl), h4, .inl rfl⟩
      | true => exact ⟨ems ++ [id], st1, _, h1.trans (.emit hq e1 .refl), h4, .inl rfl⟩

theorem new_sim {p : GrammarParser} (hp : p.parseGrammar = ParseGrammar.newUnchecked g) {s : Option Term} (hS : s.getD p.startingTerm = S)
    {it : ParseTreeIter} (h : ParseTreeIter.new p input s = some it) : Sim g S input it.st 0 := by
  have ho := new_order h
  have hpg := PGOk.newUnchecked g
  unfold ParseTreeIter.new at h
  rw [hS, hp, hpg.prodsFor] at h
  simp only [Option.some.injEq] at h
  subst h
  have hi := (Inv.init hpg input S).1
  obtain ⟨new, h1, _, h3⟩ := predictAll_new (range := InputRange.new input) (flag := true)
    ((ParseGrammar.newUnchecked g).productions.filter (fun p => p.lhs = S)) ((prods_sorted hpg).filter _)
    (t := ⟨[], [], []⟩) (q := ⟨[], []⟩) (by simp [AMap.get])
  have hroots := (predictAll_roots (range := InputRange.new input) (flag := true)
    ((ParseGrammar.newUnchecked g).productions.filter (fun p => p.lhs = S)) ((prods_sorted hpg).filter _)
    (t := ⟨[], [], []⟩) (q := ⟨[], []⟩)).2.2.1
  have hmem : ∀ {p'}, p' ∈ (ParseGrammar.newUnchecked g).productions.filter (fun p => p.lhs = S) →
      (ParseGrammar.newUnchecked g).productions[p'.id]? = some p' ∧ p'.lhs = S := by
    intro p' hp'
    have hp'' := List.mem_filter.mp hp'
    simp only [decide_eq_true_eq] at hp''
    obtain ⟨i, hi⟩ := List.mem_iff_getElem?.mp hp''.1
    rw [hpg.id_eq i p' hi]
    exact ⟨hi, hp''.2⟩
  have h0 : (InputRange.new input).totalLen = 0 := rfl
  have hlen := congrArg List.length h3
  simp only [List.length_map] at hlen
  simp only [List.nil_append] at h1
  refine ⟨hi, ho, ?_, ?_, ?_⟩
  · simp only [chart, Spec.begin, listed_eq, List.length_map, h1, hlen]
  · intro k x hx
    simp only [chart, Spec.begin, listed_eq, List.map_map, List.getElem?_map, Option.map_eq_some_iff] at hx
    obtain ⟨pr, hpr, rfl⟩ := hx
    obtain ⟨trj, hj, hsrc⟩ := map_get h3 hpr
    simp only [Prod.mk.injEq] at hsrc
    obtain ⟨d1, d2⟩ := hmem (List.mem_of_getElem? hpr)
    have := rel_root hi.s (k := k) (tr := trj) (p := pr) (s := input) (by simp only [h1]; exact hj) hsrc.1 (by rw [hsrc.2.1]; exact d1)
      (by rw [hsrc.2.2, h0, getFrom_zero])
    simp only [Function.comp]
    rw [d2] at this
    exact this
  · intro p i k pr a1 a2
    left
    obtain ⟨_, p', hp', heq⟩ := hroots _ _ (by simp [AMap.get]) a1
    obtain ⟨d1, d2⟩ := hmem hp'
    simp only [Prod.mk.injEq] at heq
    rw [heq.1, d1] at a2; injection a2 with a2; subst a2
    exact ⟨by rw [heq.2, h0], d2⟩

theorem opened_sim {it : ParseTreeIter} (h : Opened g S input it) : Sim g S input it.st 0 := by
  cases h with
  | @parserStarting ord p _ hb hi => exact new_sim (buildParser_ok hb).2 rfl hi
  | @parser ord p _ hb hs hi =>
    refine new_sim (buildParser_ok hb).2 ?_ hi
    have := (buildParser_ok hb).1
    rw [hs] at this; injection this with this
    simpa using this.symm
  | deprecatedStarting hi =>
    unfold Grammar.parseInputStartingWithDeprecated Grammar.newUnchecked at hi
    split at hi
    · cases hi
    · rename_i p hp
      split at hp
      · cases hp
      · injection hp with hp
        exact new_sim (p := p) (by rw [← hp]) rfl hi
  | deprecated hs hi =>
    unfold Grammar.parseInputDeprecated Grammar.newUnchecked at hi
    rw [hs] at hi
    exact new_sim (p := ⟨S, ParseGrammar.newUnchecked g⟩) rfl rfl hi

theorem forall₂_treeOf {ems : List Nat} {ts ts' : List ParseTree} (h : List.Forall₂ (TreeOf g st) ems ts)
    (h' : List.Forall₂ (TreeOf g st) ems ts') : ts = ts' := by
  induction h generalizing ts' with
  | nil => cases h'; rfl
  | cons h1 _ ih =>
    cases h' with
    | cons h2 h3 => rw [treeOf_fun h1 h2, ih h3]

/-- Successful calls give the trees found so far. -/
theorem draws_found {it it' : ParseTreeIter} {ts : List ParseTree} (ho : Opened g S input it) (hd : Draws it ts it') :
    ∃ h, Sim g S input it'.st h ∧ ts = found g S input h := by
  obtain ⟨ems, hr, _, hf, _⟩ := hd.rounds ho.inv.1
  obtain ⟨h, ts', _, hs, he, hf'⟩ := (opened_sim ho).rounds hr
  refine ⟨h, hs, ?_⟩
  rw [he, forall₂_treeOf hf hf']
  simp [found]

theorem found_draws {it : ParseTreeIter} (ho : Opened g S input it) (h : Nat) : ∃ it', Draws it (found g S input h) it' := by
  obtain ⟨ems, st', h', hr, hs, hh⟩ := (opened_sim ho).reach h
  rw [Nat.zero_add] at hh
  have hf : found g S input h' = found g S input h := by
    rcases hh with rfl | ⟨hle, hq⟩
    · rfl
    · exact (chart_end (Nat.le_of_eq (hs.queue_nil.mp hq)) hle).2.symm
  obtain ⟨ts, it', hd, hr', hi', hf'⟩ := Rounds.draws ho.inv.1 hr
  obtain ⟨h2, hs2, he⟩ := draws_found ho hd
  refine ⟨it', ?_⟩
  obtain ⟨h3, ts3, _, hs3, he3, hf3⟩ := hs2.rounds hr'
  cases hf3
  have : h3 = h' := by
    have a1 := hs3.ord.basic.queue
    have a2 := hs.ord.basic.queue
    rw [a2] at a1
    have b1 := hs3.ord.basic.hle
    have b2 := hs.ord.basic.hle
    have := congrArg List.length a1
    simp only [List.length_range'] at this
    omega
  rw [← hf, ← this, he3, List.append_nil, ← he]
  exact hd

theorem draws_prefix {it it' : ParseTreeIter} {ts ts' : List ParseTree} (hd : Draws it ts it') (hp : ts' <+: ts) : ∃ it1, Draws it ts' it1 := by
  induction hd generalizing ts' with
  | nil => rw [List.prefix_nil.mp hp]; exact ⟨_, .nil⟩
  | cons hn _ ih =>
    cases ts' with
    | nil => exact ⟨_, .nil⟩
    | cons t ts' =>
      obtain ⟨rfl, hp'⟩ := List.cons_prefix_cons.mp hp
      obtain ⟨it1, h⟩ := ih hp'
      exact ⟨it1, .cons hn h⟩

/-- An iterator that has found everything is exhausted, and the other way round. -/
theorem ended_iff {it it' : ParseTreeIter} {ts : List ParseTree} (ho : Opened g S input it) (hd : Draws it ts it') :
    (∃ it'', Next it' none it'') ↔ ∃ h, (chart g S input h).length ≤ h ∧ ts = found g S input h := by
  obtain ⟨_, _, hi1, _⟩ := hd.rounds ho.inv.1
  obtain ⟨h0, hs0, hts⟩ := draws_found ho hd
  constructor
  · rintro ⟨it'', hn⟩
    obtain ⟨hr, _, hq, _⟩ := Next.none_rounds hi1 hn
    obtain ⟨h', ts', _, hs, he, hf⟩ := hs0.rounds hr
    cases hf
    exact ⟨h', Nat.le_of_eq (hs.queue_nil.mp hq), by rw [he, List.append_nil, hts]⟩
  · rintro ⟨h, hl, he⟩
    obtain ⟨ems, st', h', hr, hs, hh⟩ := hs0.reach h
    have hq : st'.queue.queue = [] := by
      rcases hh with rfl | ⟨_, hq⟩
      · have h1 := (chart_end hl (show h ≤ h0 + h by omega)).1
        have h2 := hs.len_ge
        refine hs.queue_nil.mpr ?_
        rw [h1] at h2 ⊢
        omega
      · exact hq
    have hend := Nat.le_of_eq (hs.queue_nil.mp hq)
    have hfe : found g S input h' = found g S input h := by
      rw [← (chart_end hend (Nat.le_max_left h' h)).2, (chart_end hl (Nat.le_max_right h' h)).2]
    obtain ⟨h'', ts'', _, hs'', he'', hf''⟩ := hs0.rounds hr
    have hend'' := Nat.le_of_eq (hs''.queue_nil.mp hq)
    have hfe'' : found g S input h'' = found g S input h := by
      rw [← (chart_end hend'' (Nat.le_max_left h'' h)).2, (chart_end hl (Nat.le_max_right h'' h)).2]
    rw [hfe'', ← he, hts] at he''
    have : ts'' = [] := List.self_eq_append_right.mp he''
    subst this
    cases hf''
    obtain ⟨fuel, hfu⟩ := earley_none_of_rounds hr rfl hq
    refine ⟨{ it' with st := st' }, fuel, ?_⟩
    unfold ParseTreeIter.next
    rw [hi1.pg, hfu]

end

end Bnf
