import Verif.Model.Machine
import Verif.Proofs.Opened

/-! Bounded integers never overflow: parsing. -/

set_option autoImplicit false

namespace Bnf
open Spec

theorem addW_ok {max a b : Nat} (h : a + b ≤ max) : addW max a b = some (a + b) := by
  simp [addW, h]

theorem predictW_eq {max : Nat} {range : InputRange} (h : range.totalLen ≤ max) (t : TravTree) (p : FlatProd) (b : Bool) :
    t.predictW max range p b = some (t.predict range p b) := by
  unfold TravTree.predictW TravTree.predict InputRange.totalLenW InputRange.afterW InputRange.after
  simp only [InputRange.totalLen] at h ⊢
  rw [addW_ok h]
  simp only [Option.map_some]
  cases t.roots.get (p.id, range.start + range.len) <;> rfl

theorem predictAllW_eq {max : Nat} {range : InputRange} (h : range.totalLen ≤ max) (b : Bool) (ps : List FlatProd) (t : TravTree)
    (q : TravQueue) : predictAllW max range b ps t q = some (predictAll range b ps t q) := by
  induction ps generalizing t q with
  | nil => rfl
  | cons p ps ih =>
    simp only [predictAllW, predictAll, predictW_eq h]
    exact ih _ _

theorem advanceByW_eq {max : Nat} {r : InputRange} {step : Nat} (h : r.len + step ≤ max) : r.advanceByW max step = r.advanceBy step := by
  unfold InputRange.advanceByW InputRange.advanceBy
  rw [addW_ok h]
  rfl

theorem matchTermW_eq {max : Nat} {pg input S t q} (hmax : byteLen input ≤ max) (h : SInv pg input S t q) {k : Nat} {tp : Traversal} {m len rest}
    (hk : t.arena[k]? = some tp) (hl : Link pg input t.arena tp m len rest) : t.matchTermW max k m = t.matchTerm k m := by
  have hget : t.get k = some tp := hk
  unfold TravTree.matchTermW TravTree.matchTerm
  rw [hget]
  simp only
  have : t.matchRangeW max tp m = t.matchRange tp m := by
    cases hl with
    | terminal h1 h2 =>
      unfold TravTree.matchRangeW TravTree.matchRange
      refine advanceByW_eq ?_
      have := getFrom_len h2
      simp [Traversal.total, InputRange.totalLen] at this
      omega
    | nonterminal h1 h2 h3 h4 h5 h6 =>
      unfold TravTree.matchRangeW TravTree.matchRange TravTree.get
      simp only [h1]
      obtain ⟨r, hr⟩ := h.total_ok h1
      have := getFrom_len hr
      simp only [Traversal.total, InputRange.totalLen] at this h6
      exact advanceByW_eq (by omega)
  rw [this]
  rfl

theorem matchAllW_eq {max : Nat} {pg input S} (hmax : byteLen input ≤ max) (ms : List (Nat × TermMatch)) {t q} (h : SInv pg input S t q)
    (hm : ∀ x ∈ ms, ∃ tp len rest, t.arena[x.1]? = some tp ∧ Link pg input t.arena tp x.2 len rest) :
    matchAllW max ms t q = matchAll ms t q := by
  induction ms generalizing t q with
  | nil => rfl
  | cons x xs ih =>
    obtain ⟨tp, len, rest, hx, hl⟩ := hm x (by simp)
    obtain ⟨id, t1, e, h1, e1, _⟩ := match_push h hx hl
    simp only [matchAllW, matchAll, matchTermW_eq hmax h hx hl, e]
    refine ih h1 ?_
    intro y hy
    obtain ⟨tp, len, rest, hx, hl⟩ := hm y (by simp [hy])
    obtain ⟨new, hn⟩ := e1.arena
    exact ⟨tp, len, rest, e1.get hx, by rw [hn]; exact hl.mono⟩

theorem insertW_eq {max : Nat} {tr : Traversal} (h : tr.total ≤ max) (c : CompletionMap) (lhs : Term) :
    c.insertW max tr lhs = some (c.insert tr lhs) := by
  unfold CompletionMap.insertW CompletionMap.insert InputRange.totalLenW
  simp only [Traversal.total, InputRange.totalLen] at h ⊢
  rw [addW_ok h]
  cases tr.nextUnmatched with
  | none => rfl
  | some T => cases T <;> rfl

/-- A round on bounded integers is the round. -/
theorem Inv.roundW {max : Nat} {pg input S} (hpg : PGOk pg) (hmax : byteLen input ≤ max) {st : PState} (h : Inv pg input S st) {id rest}
    (hq : st.queue.queue = id :: rest) : earleyRoundW max pg (st.pop rest) id = earleyRound pg (st.pop rest) id := by
  have hlt := h.s.qlt id (by rw [hq]; simp)
  have hs0 := h.s.pop hq
  obtain ⟨tr, htr⟩ : ∃ tr, st.tree.arena[id]? = some tr := ⟨_, List.getElem?_eq_getElem hlt⟩
  have hok := h.s.entries id tr htr
  obtain ⟨p, hp⟩ := hok.prod
  have hget : (st.pop rest).tree.get id = some tr := htr
  have hpid : pg.prodById tr.prodId = some p := hp
  have hcins := h.c.insert htr hok.id_eq hp
  obtain ⟨r0, hr0⟩ := h.s.total_ok htr
  have htot : tr.total ≤ max := by
    have := getFrom_len hr0
    omega
  have htot' : tr.range.start + tr.range.len ≤ max := htot
  unfold earleyRoundW earleyRound
  rw [hget]
  simp only [Traversal.nextUnmatched]
  cases hu : tr.unmatched with
  | nil =>
    simp only [List.head?_nil, hpid, insertW_eq htot]
    rw [matchAllW_eq hmax _ hs0]
    · rfl
    intro x hx
    obtain ⟨i, hi, rfl⟩ := List.mem_map.mp hx
    unfold CompletionMap.getIncomplete at hi
    simp only [PState.pop] at hi
    rw [hcins.inc] at hi
    obtain ⟨_, t, n, rst, ht, htu, hl, htot⟩ := hi
    exact ⟨t, _, rst, ht, .nonterminal htr hu hp hl htu htot.symm⟩
  | cons T ts =>
    cases T with
    | terminal s =>
      simp only [List.head?_cons, InputRange.nextW, addW_ok htot', Option.map_some]
      change (if startsWith tr.range.next s then _ else _) = _
      split
      · rename_i hsw
        obtain ⟨r, hr⟩ := startsWith_iff.mp hsw
        have hf : getFrom input tr.total = some (s ++ r) := by
          unfold InputRange.next at hr
          rw [hok.input_eq] at hr
          simp only [Traversal.total, InputRange.totalLen] at hr0 ⊢
          rw [hr0] at hr ⊢
          simp at hr
          rw [hr]
        rw [matchAllW_eq hmax _ hs0]
        · rfl
        intro x hx
        simp at hx
        subst hx
        exact ⟨tr, _, ts, htr, .terminal hu hf⟩
      · rfl
    | nonterminal n =>
      simp only [List.head?_cons, hpid, insertW_eq htot, hpg.prodsFor]
      rw [predictAllW_eq (range := tr.range) htot]
      simp only [CompletionMap.getCompleteW, InputRange.totalLenW, addW_ok htot', Option.map_some]
      obtain ⟨hs1, he1, hroots⟩ := predictAll_inv hpg (range := tr.range) (flag := false) hok.input_eq
        ⟨r0, hr0⟩ (pg.productions.filter (fun p => p.lhs = .nonterminal n)) hs0
        (fun p hp => (List.mem_filter.mp hp).1) (by
          intro p' hp' t'' q'' he'' hs'' hnone
          have hp'' := List.mem_filter.mp hp'
          simp at hp''
          obtain ⟨i, hi⟩ := List.mem_iff_getElem?.mp hp''.1
          constructor
          · intro hc; cases hc
          · rintro ⟨h0, hS⟩
            obtain ⟨k, hk⟩ := h.startRoots i p' hi hS
            have := hs0.roots_mono hs'' he'' hk
            rw [h0, hpg.id_eq i p' hi, this] at hnone
            cases hnone) (by
          intro p' hp'
          have hp'' := List.mem_filter.mp hp'
          simp at hp''
          exact .inr ⟨id, tr, n, ts, hlt, htr, hp''.2, hu, rfl⟩)
      rw [matchAllW_eq hmax _ hs1]
      · rfl
      · intro x hx
        obtain ⟨c, hc, rfl⟩ := List.mem_map.mp hx
        simp only [PState.pop] at hc
        rw [hcins.com] at hc
        obtain ⟨_, t, pc, ht, htu, hpc, hl, htot⟩ := hc
        exact ⟨tr, _, ts, he1.get htr, .nonterminal (he1.get ht) htu hpc hl hu htot⟩

theorem earleyW_eq {max : Nat} {pg input S} (hpg : PGOk pg) (hmax : byteLen input ≤ max) (fuel : Nat) {st : PState} (h : Inv pg input S st) :
    earleyW max pg fuel st = earley pg fuel st := by
  induction fuel generalizing st with
  | zero => rfl
  | succ n ih =>
    unfold earleyW earley
    cases hq : st.queue.queue with
    | nil => rfl
    | cons id rest =>
      have e := h.roundW (max := max) hpg hmax hq
      obtain ⟨st', b, e', hi, _⟩ := h.round hpg hq
      simp only [PState.pop] at e e'
      simp only [e, e']
      cases b with
      | true => rfl
      | false => exact ih hi

theorem newW_eq {max : Nat} (p : GrammarParser) (input : Str) (start : Option Term) :
    ParseTreeIter.newW max p input start = ParseTreeIter.new p input start := by
  unfold ParseTreeIter.newW ParseTreeIter.new
  cases p.parseGrammar.prodsFor (start.getD p.startingTerm) with
  | none => rfl
  | some prods =>
    simp only
    rw [predictAllW_eq (by simp [InputRange.new, InputRange.totalLen])]

end Bnf
