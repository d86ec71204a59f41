import Verif.Proofs.Counted
import Verif.Props.Work

/-! # Property C105: all the work of a parse, the inner loops included -/

set_option autoImplicit false

namespace Bnf.Props
open Bnf Spec

/-- C105: the counting functions compute what the functions of the model compute. -/
theorem C105_counted (it : ParseTreeIter) (fuel : Nat) : withoutCounts (it.nextC fuel) = it.next fuel := nextC_eq it fuel

/-- C105: also in a single round of the loop. -/
theorem C105_counted_round (pg : ParseGrammar) (st : PState) (id : Nat) :
    (earleyRoundC pg st id).map (fun r => (r.1, r.2.1)) = earleyRound pg st id := earleyRoundC_eq pg st id

/-- C105: and in reading a tree. -/
theorem C105_counted_tree (t : TravTree) (pg : ParseGrammar) (fuel id : Nat) : (parseTreeC t pg fuel id).map (·.1) = parseTree t pg fuel id :=
  parseTreeC_eq t pg fuel id

theorem next_counted {it it' : ParseTreeIter} {r : Option ParseTree} (h : Next it r it') : ∃ fuel c, it.nextC fuel = .returned (r, it', c) := by
  obtain ⟨fuel, h⟩ := h
  rw [← nextC_eq] at h
  cases hx : it.nextC fuel with
  | outOfFuel => simp [hx, withoutCounts] at h
  | panic => simp [hx, withoutCounts] at h
  | returned x =>
    obtain ⟨a, b, c⟩ := x
    simp only [hx, withoutCounts, Outcome.returned.injEq, Prod.mk.injEq] at h
    obtain ⟨rfl, rfl⟩ := h
    exact ⟨fuel, c, hx⟩

theorem counted_next {it it' : ParseTreeIter} {r : Option ParseTree} {fuel : Nat} {c : Calls} (h : it.nextC fuel = .returned (r, it', c)) : Next it r it' :=
  ⟨fuel, by rw [← nextC_eq, h]; rfl⟩

/-- C105: hence the trees of a drained iterator are the same. -/
theorem C105_drains {it ts it'} : (∃ c, DrainsWith it ts c it') ↔ ∃ it1, Draws it ts it1 ∧ Next it1 none it' := by
  constructor
  · rintro ⟨c, h⟩
    induction h with
    | done h => exact ⟨_, .nil, counted_next h⟩
    | step h _ ih =>
      obtain ⟨it1, h1, h2⟩ := ih
      exact ⟨it1, .cons (counted_next h) h1, h2⟩
  · rintro ⟨it1, h1, h2⟩
    induction h1 with
    | nil =>
      obtain ⟨f, c, h⟩ := next_counted h2
      exact ⟨c, .done h⟩
    | cons hn _ ih =>
      obtain ⟨f, c, h⟩ := next_counted hn
      obtain ⟨c', h'⟩ := ih h2
      exact ⟨_, .step h h'⟩

theorem draws_fun {it it1 it2 : ParseTreeIter} {ts : List ParseTree} (h : Draws it ts it1) (h' : Draws it ts it2) : it1 = it2 := by
  induction h with
  | nil => cases h'; rfl
  | cons hx _ ih =>
    cases h' with
    | cons hy h' =>
      have := (hx.det hy).2
      subst this
      exact ih h'

/-- C105: the rounds are those of C65. -/
theorem C105_rounds {g S input it ts c it' n it''} (ho : Opened g S input it) (h : DrainsWith it ts c it') (h' : DrainsIn it ts n it'') :
    c.rounds = n := by
  obtain ⟨it1, hd, hn⟩ := C105_drains.mp ⟨c, h⟩
  obtain ⟨it2, hd', hn'⟩ := drainsIn_draws h'
  obtain ⟨m, hm⟩ := drainsIn_of_draws ho.inv.1 hd hn
  have h1 := C65_rounds ho hm
  have h2 := C65_rounds ho h'
  obtain ⟨_, _, hc⟩ := drained_counts ho h
  have h3 : it1 = it2 := draws_fun hd hd'
  subst h3
  have h4 := (hn.det hn').2
  subst h4
  rw [hc]
  simp only
  omega

/-- C105: in a grammar without repeated alternatives, draining an iterator takes one round for every viable partial derivation and one more, one test
whether the input goes on with a terminal for every viable partial derivation that waits for a terminal, one call of `match_term` for every viable partial
derivation with something matched, and one call of `predict` for every viable partial derivation that waits for a nonterminal and every alternative of it;
reading the trees takes as many look-ups as their shapes say. -/
theorem C105_exact {g S input it ts c it'} (hnodup : (alternatives g).Nodup) (ho : Opened g S input it) (h : DrainsWith it ts c it') :
    {x | Viable g S input x}.Finite ∧ c.rounds = {x | Viable g S input x}.ncard + 1 ∧
      c.tests = {x | Viable g S input x ∧ ∃ s, x.Waits (.terminal s)}.ncard ∧
      c.matches_ = {x | Viable g S input x ∧ x.forest ≠ []}.ncard ∧
      c.predicts = {y : Begun × Expression | Viable g S input y.1 ∧ ∃ n, y.1.Waits (.nonterminal n) ∧ HasAlt g (.nonterminal n) y.2}.ncard ∧
      c.gets = (ts.map treeReading).sum := by
  obtain ⟨hi, hq, rfl⟩ := drained_counts ho h
  obtain ⟨h1, h2⟩ := arena_ge hi hq
  have h3 := arena_le hnodup hi h1
  refine ⟨h1, by simp only; omega, ?_, ?_, (awaited_viable hnodup hi hq).2, rfl⟩
  · refine (countP_viable hnodup hi hq _ _ fun k tr x hk hx => ?_).2
    obtain ⟨tr', htr, hw, _⟩ := itemOf_entry hi hx
    rw [hk] at htr; injection htr with htr; subst htr
    simp only [hw]
    unfold waitsTerminal
    cases tr.unmatched with
    | nil => simp
    | cons T ts => cases T <;> simp
  · refine (countP_viable hnodup hi hq _ _ fun k tr x hk hx => ?_).2
    obtain ⟨tr', htr, _, hs⟩ := itemOf_entry hi hx
    rw [hk] at htr; injection htr with htr; subst htr
    exact hs.symm

/-- C105: in any grammar, if no nonterminal has more than `A` alternatives, then there are at most `A` calls of `predict` per round, and fewer calls of
`match_term` and fewer tests for a terminal than rounds. -/
theorem C105_bound {g S input it ts c it' A} (ho : Opened g S input it) (h : DrainsWith it ts c it')
    (hA : ∀ n, ((alternatives g).filter fun a => a.1 = .nonterminal n).length ≤ A) :
    c.predicts ≤ A * (c.rounds - 1) ∧ c.matches_ < c.rounds ∧ c.tests < c.rounds ∧ c.gets = (ts.map treeReading).sum := by
  obtain ⟨_, _, rfl⟩ := drained_counts ho h
  refine ⟨?_, ?_, ?_, rfl⟩
  · simp only [Nat.add_sub_cancel]
    have hle : ∀ tr, (awaited (ParseGrammar.newUnchecked g) tr).length ≤ A := by
      intro tr
      unfold awaited
      cases tr.unmatched with
      | nil => simp
      | cons T ts =>
        cases T with
        | terminal s => simp
        | nonterminal n =>
          refine Nat.le_trans (Nat.le_of_eq ?_) (hA n)
          have : alternatives g = (ParseGrammar.newUnchecked g).productions.map fun p => (p.lhs, p.rhs) := (newUnchecked_productions g).symm
          rw [this, List.filter_map, List.length_map]
          rfl
    induction it'.st.tree.arena with
    | nil => simp
    | cons tr l ih =>
      have := hle tr
      simp only [List.map_cons, List.sum_cons, List.length_cons, Nat.mul_add, Nat.mul_one]
      omega
  · have := List.countP_le_length (p := fun x : Traversal => x.src.isSome) (l := it'.st.tree.arena)
    simp only
    omega
  · have := List.countP_le_length (p := waitsTerminal) (l := it'.st.tree.arena)
    simp only
    omega

/-- C105: for an unambiguous grammar in which every nonterminal used derives something, everything that the loops of the parser do is at most quadratic in
the length of the input. -/
theorem C105_quadratic {g S input it A} (hnodup : (alternatives g).Nodup) (hu : Unambiguous g) (hp : Productive g) (ho : Opened g S input it)
    (hA : ∀ n, ((alternatives g).filter fun a => a.1 = .nonterminal n).length ≤ A) :
    ∃ ts c it', DrainsWith it ts c it' ∧
      c.rounds + c.predicts + c.matches_ + c.tests ≤ (A + 3) * (places g * ((input.length + 1) * (input.length + 2) / 2) + 1) := by
  obtain ⟨ts, n, it', h, hn⟩ := C66_quadratic hnodup hu hp ho
  obtain ⟨c, hc⟩ := C105_drains.mpr (drainsIn_draws h)
  have h1 := C105_rounds ho hc h
  obtain ⟨h2, h3, h4, _⟩ := C105_bound ho hc hA
  refine ⟨ts, c, it', hc, Nat.le_trans ?_ (Nat.mul_le_mul_left (A + 3) hn)⟩
  rw [← h1]
  have : A * (c.rounds - 1) ≤ A * c.rounds := Nat.mul_le_mul_left _ (by omega)
  rw [Nat.add_mul]
  omega

/-! ## Reading a node with many children -/

/-- `<s> ::= 'a' 'a' ... 'a'`, with `k` terms. -/
def gFlat (k : Nat) : Grammar := ⟨[⟨.nonterminal ['s'], [⟨List.replicate k (.terminal ['a'])⟩]⟩]⟩

theorem flat_forest {g : Grammar} {k : Nat} {ns} (h : IsForest g (List.replicate k (.terminal ['a'])) ns) : ns = List.replicate k (.terminal ['a']) := by
  induction k generalizing ns with
  | zero => cases h; rfl
  | succ k ih =>
    rw [List.replicate_succ] at h
    cases h with
    | terminal h => rw [ih h]; rfl

theorem gFlat_parse {k : Nat} {T w t} (h : IsParse (gFlat k) T w t) : t = ⟨.nonterminal ['s'], List.replicate k (.terminal ['a'])⟩ := by
  obtain ⟨l, ns⟩ := t
  obtain ⟨h1, ⟨e, ⟨p, hp, hl, he⟩, hf⟩, hy⟩ := h
  simp only [gFlat, List.mem_singleton] at hp
  subst hp
  simp only [List.mem_singleton] at he hl hf
  subst he hl
  simp only [ParseTree.mk.injEq, true_and]
  simp only at hf
  exact flat_forest hf

theorem gFlat_forest (g : Grammar) (k : Nat) : IsForest g (List.replicate k (.terminal ['a'])) (List.replicate k (.terminal ['a'])) ∧
    Spec.yield (List.replicate k (.terminal ['a'])) = List.replicate k 'a' := by
  induction k with
  | zero => exact ⟨.nil, rfl⟩
  | succ k ih =>
    simp only [List.replicate_succ]
    exact ⟨.terminal ih.1, by simp [Spec.yield, nodeYield, ih.2]⟩

theorem kidsReading_flat (k : Nat) : kidsReading (List.replicate k (.terminal ['a'])) = 0 := by
  induction k with
  | zero => rfl
  | succ k ih => simp [List.replicate_succ, kidsReading, nodeReading, ih]

/-- C105: reading a node is quadratic in the number of its children: the one tree of a text of `k` letters, in the grammar with one alternative of `k`
terminals, is found in `k + 2` rounds, and read with `(k + 1) (k + 2) / 2 + 1` look-ups. -/
theorem C105_flat {k it} (ho : Opened (gFlat k) (.nonterminal ['s']) (List.replicate k 'a') it) :
    ∃ c it', DrainsWith it [⟨.nonterminal ['s'], List.replicate k (.terminal ['a'])⟩] c it' ∧ c = ⟨k + 2, 0, k, k, (k + 1) * (k + 2) / 2 + 1⟩ := by
  have halt : HasAlt (gFlat k) (.nonterminal ['s']) ⟨List.replicate k (.terminal ['a'])⟩ := ⟨_, List.mem_singleton_self _, rfl, List.mem_singleton_self _⟩
  have halts : ∀ l e, HasAlt (gFlat k) l e → l = .nonterminal ['s'] ∧ e = ⟨List.replicate k (.terminal ['a'])⟩ := by
    rintro l e ⟨p, hp, rfl, he⟩
    simp only [gFlat, List.mem_singleton] at hp
    subst hp
    exact ⟨rfl, by simpa using he⟩
  have hnt : ∀ n l e, HasAlt (gFlat k) l e → Term.nonterminal n ∉ e.terms := by
    intro n l e ha hn
    obtain ⟨_, rfl⟩ := halts l e ha
    have := List.eq_of_mem_replicate hn
    cases this
  have hnod : (alternatives (gFlat k)).Nodup := by simp [alternatives, gFlat]
  have hu : Unambiguous (gFlat k) := fun T w t t' h h' => by rw [gFlat_parse h, gFlat_parse h']
  have hp : Productive (gFlat k) := fun l e n ha hn => absurd hn (hnt n l e ha)
  obtain ⟨ts, n, it', h, _⟩ := C66_quadratic hnod hu hp ho
  have hdr := drainsIn_draws h
  obtain ⟨c, hc⟩ := C105_drains.mpr hdr
  obtain ⟨it1, hd, hn⟩ := hdr
  have hts : ts = [⟨.nonterminal ['s'], List.replicate k (.terminal ['a'])⟩] := by
    have h1 : ∀ t ∈ ts, t = ⟨.nonterminal ['s'], List.replicate k (.terminal ['a'])⟩ := fun t ht => gFlat_parse (C01_soundness ho hd t ht)
    have h2 := C04_no_duplicates hnod ho hd
    have h3 := (C05_exhausted_exact ho hd hn ⟨.nonterminal ['s'], List.replicate k (.terminal ['a'])⟩).mpr
      ⟨rfl, ⟨_, halt, (gFlat_forest _ k).1⟩, (gFlat_forest (gFlat k) k).2⟩
    cases ts with
    | nil => cases h3
    | cons a as =>
      cases as with
      | nil => rw [h1 a (by simp)]
      | cons b bs =>
        rw [h1 a (by simp), h1 b (by simp)] at h2
        simp at h2
  subst hts
  refine ⟨c, it', hc, ?_⟩
  obtain ⟨hfin, e1, e2, e3, e4, e5⟩ := C105_exact hnod ho hc
  -- the viable partial derivations: the first `j` letters read
  let X : Nat → Begun := fun j => ⟨[], .nonterminal ['s'], ⟨List.replicate k (.terminal ['a'])⟩, List.replicate j (.terminal ['a'])⟩
  have hforest : ∀ {pre post ns}, List.replicate k (Term.terminal ['a']) = pre ++ post → IsForest (gFlat k) pre ns →
      ns = List.replicate pre.length (.terminal ['a']) := by
    intro pre post ns he hf
    have hpre : pre = List.replicate pre.length (.terminal ['a']) := by
      refine List.eq_replicate_of_mem fun T hT => ?_
      exact List.eq_of_mem_replicate (n := k) (by rw [he]; simp [hT])
    generalize pre.length = m at hpre
    subst hpre
    exact flat_forest hf
  have hX : ∀ x, Viable (gFlat k) (.nonterminal ['s']) (List.replicate k 'a') x ↔ ∃ j, j ≤ k ∧ x = X j := by
    rintro ⟨u, l, e, ns⟩
    constructor
    · rintro ⟨ha, hex, pre, post, r, hts, hf, hr⟩
      simp only at ha hex hts hf hr
      obtain ⟨rfl, rfl⟩ := halts _ _ ha
      have hu0 : u = [] := by
        cases hex with
        | start => rfl
        | step hex' ha' hts' _ _ => exact absurd (by rw [hts']; exact List.mem_append_right _ List.mem_cons_self) (hnt _ _ _ ha')
      subst hu0
      have := congrArg List.length hts
      simp at this
      exact ⟨pre.length, by omega, by simp only [X, Begun.mk.injEq, true_and]; exact hforest hts hf⟩
    · rintro ⟨j, hj, he⟩
      simp only [X, Begun.mk.injEq] at he
      obtain ⟨rfl, rfl, rfl, rfl⟩ := he
      refine ⟨halt, .start, List.replicate j (.terminal ['a']), List.replicate (k - j) (.terminal ['a']), List.replicate (k - j) 'a', ?_, (gFlat_forest _ j).1, ?_⟩
      · simp only [List.replicate_append_replicate]; congr 1; omega
      · rw [(gFlat_forest (gFlat k) j).2]
        simp only [List.nil_append, List.replicate_append_replicate]; congr 1; omega
  have hinj : Function.Injective X := fun a b hab => by
    simp only [X, Begun.mk.injEq, true_and] at hab
    simpa using congrArg List.length hab
  have hwait : ∀ j T, (X j).Waits T ↔ j < k ∧ T = .terminal ['a'] := by
    intro j T
    constructor
    · rintro ⟨pre, post, h1, h2⟩
      simp only [X] at h1 h2
      have := congrArg List.length h1
      simp at this h2
      exact ⟨by omega, List.eq_of_mem_replicate (n := k) (by rw [h1]; simp)⟩
    · rintro ⟨hj, rfl⟩
      refine ⟨List.replicate j (.terminal ['a']), List.replicate (k - j - 1) (.terminal ['a']), ?_, by simp [X]⟩
      simp only [X]
      rw [← List.replicate_succ, List.replicate_append_replicate]
      congr 1
      omega
  have s1 : {x | Viable (gFlat k) (.nonterminal ['s']) (List.replicate k 'a') x} = X '' (Finset.range (k + 1) : Set Nat) := by
    ext x
    simp only [Set.mem_setOf_eq, hX, Set.mem_image, Finset.mem_coe, Finset.mem_range]
    exact ⟨fun ⟨j, h1, h2⟩ => ⟨j, by omega, h2.symm⟩, fun ⟨j, h1, h2⟩ => ⟨j, by omega, h2.symm⟩⟩
  have s2 : {x | Viable (gFlat k) (.nonterminal ['s']) (List.replicate k 'a') x ∧ ∃ s, x.Waits (.terminal s)} = X '' (Finset.range k : Set Nat) := by
    ext x
    simp only [Set.mem_setOf_eq, hX, Set.mem_image, Finset.mem_coe, Finset.mem_range]
    constructor
    · rintro ⟨⟨j, h1, rfl⟩, s, hw⟩
      exact ⟨j, ((hwait j _).mp hw).1, rfl⟩
    · rintro ⟨j, h1, rfl⟩
      exact ⟨⟨j, by omega, rfl⟩, ['a'], (hwait j _).mpr ⟨h1, rfl⟩⟩
  have s3 : {x | Viable (gFlat k) (.nonterminal ['s']) (List.replicate k 'a') x ∧ x.forest ≠ []} = (fun j => X (j + 1)) '' (Finset.range k : Set Nat) := by
    ext x
    simp only [Set.mem_setOf_eq, hX, Set.mem_image, Finset.mem_coe, Finset.mem_range]
    constructor
    · rintro ⟨⟨j, h1, rfl⟩, hne⟩
      cases j with
      | zero => simp [X] at hne
      | succ j => exact ⟨j, by omega, rfl⟩
    · rintro ⟨j, h1, rfl⟩
      exact ⟨⟨j + 1, by omega, rfl⟩, by simp [X, List.replicate_succ]⟩
  have s4 : {y : Begun × Expression | Viable (gFlat k) (.nonterminal ['s']) (List.replicate k 'a') y.1 ∧
      ∃ n, y.1.Waits (.nonterminal n) ∧ HasAlt (gFlat k) (.nonterminal n) y.2} = ∅ := by
    ext ⟨x, e⟩
    simp only [Set.mem_setOf_eq, Set.mem_empty_iff_false, iff_false]
    rintro ⟨hx, n, hw, _⟩
    obtain ⟨j, _, rfl⟩ := (hX x).mp hx
    cases ((hwait j _).mp hw).2
  rw [s1, Set.ncard_image_of_injective _ hinj, Set.ncard_coe_finset, Finset.card_range] at e1
  rw [s2, Set.ncard_image_of_injective _ hinj, Set.ncard_coe_finset, Finset.card_range] at e2
  rw [s3, Set.ncard_image_of_injective _ (fun a b hab => by simpa using hinj hab), Set.ncard_coe_finset, Finset.card_range] at e3
  rw [s4, Set.ncard_empty] at e4
  simp only [List.map_cons, List.map_nil, List.sum_cons, List.sum_nil, treeReading, nodeReading, kidsReading_flat, List.length_replicate] at e5
  cases c
  simp only [Calls.mk.injEq] at *
  omega

/-- Opened iterators for the flat grammars. -/
example (k : Nat) : ∃ it, Opened (gFlat k) (.nonterminal ['s']) (List.replicate k 'a') it := opened_of (by simp [gFlat])

/-- The counts of a drained iterator: the left-recursive grammar on "aab" (no tree is found). -/
example : ∃ it ts c it', Opened gLeft (.nonterminal ['s']) ['a', 'a', 'b'] it ∧ DrainsWith it ts c it' ∧ c = ⟨9, 2, 6, 4, 0⟩ :=
  ⟨_, _, _, _, .deprecatedStarting rfl, .done (n := 100) rfl, rfl⟩

/-- And on "a": one tree is found, and read with 11 look-ups. -/
example : ∃ it t c it', Opened gLeft (.nonterminal ['s']) ['a'] it ∧ DrainsWith it [t] c it' ∧ c.gets = 11 :=
  ⟨_, _, _, _, .deprecatedStarting rfl, .step (n := 100) rfl (.done (n := 100) rfl), rfl⟩

/-- The hypotheses of the quadratic bound hold for that grammar, with two alternatives. -/
example : ∃ it, Opened gLeft (.nonterminal ['s']) ['a', 'a', 'b'] it ∧ ∃ ts c it', DrainsWith it ts c it' ∧
    c.rounds + c.predicts + c.matches_ + c.tests ≤ 255 := by
  obtain ⟨it, ho⟩ := opened_of (g := gLeft) (S := .nonterminal ['s']) (input := ['a', 'a', 'b']) (by simp [gLeft])
  refine ⟨it, ho, ?_⟩
  obtain ⟨ts, c, it', h, hle⟩ := C105_quadratic (A := 2) (by decide) gLeft_unambiguous gLeft_productive ho (fun n => by
    refine Nat.le_trans (List.length_filter_le _ _) (by decide))
  exact ⟨ts, c, it', h, Nat.le_trans hle (by decide)⟩

end Bnf.Props
