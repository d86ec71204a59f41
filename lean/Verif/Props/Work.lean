import Verif.Proofs.Catalan
import Verif.Proofs.Recursion
import Verif.Props.Termination

/-! # Properties C65–C67: how much work the parser does -/

set_option autoImplicit false

namespace Bnf.Props
open Bnf Spec

/-- C65: draining the iterator takes one round for every traversal in its tree, and one round to find the queue empty. -/
theorem C65_rounds {g S input it ts n it'} (ho : Opened g S input it) (h : DrainsIn it ts n it') :
    n = it'.st.tree.arena.length + 1 := by
  obtain ⟨hi, h0⟩ := ho.inv
  have h1 := drainsIn_rounds hi h
  have h2 := fresh_queue hi h0
  omega

/-- C65: in a grammar without repeated alternatives the drained iterator holds exactly one traversal for every viable
partial derivation, and draining takes exactly one round for each of them and one more. -/
theorem C65_exact {g S input it ts n it'} (hnodup : (alternatives g).Nodup) (ho : Opened g S input it)
    (h : DrainsIn it ts n it') :
    {x | Viable g S input x}.Finite ∧ it'.st.tree.arena.length = {x | Viable g S input x}.ncard ∧
      n = {x | Viable g S input x}.ncard + 1 := by
  obtain ⟨it1, hd, hn⟩ := drainsIn_draws h
  obtain ⟨_, _, hi1, _⟩ := hd.rounds ho.inv.1
  obtain ⟨_, hi2, hq, _⟩ := Next.none_rounds hi1 hn
  obtain ⟨h1, h2⟩ := arena_ge hi2.inv hq
  have h3 := arena_le hnodup hi2.inv h1
  have h4 := C65_rounds ho h
  exact ⟨h1, by omega, by omega⟩

/-- C65: in any grammar draining takes at least that many rounds. -/
theorem C65_at_least {g S input it ts n it'} (ho : Opened g S input it) (h : DrainsIn it ts n it') :
    {x | Viable g S input x}.Finite ∧ {x | Viable g S input x}.ncard + 1 ≤ n := by
  obtain ⟨it1, hd, hn⟩ := drainsIn_draws h
  obtain ⟨_, _, hi1, _⟩ := hd.rounds ho.inv.1
  obtain ⟨_, hi2, hq, _⟩ := Next.none_rounds hi1 hn
  obtain ⟨h1, h2⟩ := arena_ge hi2.inv hq
  have h4 := C65_rounds ho h
  exact ⟨h1, by omega⟩

/-- C65: draining is possible exactly if there are finitely many viable partial derivations (for any grammar without
repeated alternatives). -/
theorem C65_drains_iff {g S input it} (hnodup : (alternatives g).Nodup) (ho : Opened g S input it) :
    (∃ ts n it', DrainsIn it ts n it') ↔ {x | Viable g S input x}.Finite := by
  constructor
  · rintro ⟨ts, n, it', h⟩
    exact (C65_at_least ho h).1
  · intro hfin
    obtain ⟨ts, it1, it2, h1, h2⟩ := drain_ends (fun st hst => arena_le hnodup hst hfin) ho.inv.1
    obtain ⟨n, h⟩ := drainsIn_of_draws ho.inv.1 h1 h2
    exact ⟨ts, n, it2, h⟩

/-- C65: in no state, reached by any calls, are there more traversals than viable partial derivations. -/
theorem C65_memory {g S input it it'} (hnodup : (alternatives g).Nodup) (ho : Opened g S input it)
    (hfin : {x | Viable g S input x}.Finite) (hr : Reach it it') :
    it'.st.tree.arena.length ≤ {x | Viable g S input x}.ncard :=
  arena_le hnodup (hr.inv ho.inv.1).inv hfin

/-- C66: an unambiguous grammar in which every nonterminal used derives something is parsed completely, with a number of
rounds at most quadratic in the length of the input. -/
theorem C66_quadratic {g S input it} (hnodup : (alternatives g).Nodup) (hu : Unambiguous g) (hp : Productive g)
    (ho : Opened g S input it) : ∃ ts n it', DrainsIn it ts n it' ∧
      n ≤ places g * ((input.length + 1) * (input.length + 2) / 2) + 1 := by
  obtain ⟨hfin, hle⟩ := viable_quadratic (S := S) (input := input) hnodup hu hp
  obtain ⟨ts, n, it', h⟩ := (C65_drains_iff hnodup ho).mpr hfin
  exact ⟨ts, n, it', h, by have := (C65_exact hnodup ho h).2.2; omega⟩

/-- C66: and with a number of rounds linear in the length of the input, times the number of places of the input at which
anything is expected. -/
theorem C66_few_places {g S input it} (hnodup : (alternatives g).Nodup) (hu : Unambiguous g) (hp : Productive g)
    (ho : Opened g S input it) (E : Finset Nat) (hE : ∀ u T, Expected g S input u T → u.length ∈ E) :
    ∃ ts n it', DrainsIn it ts n it' ∧ n ≤ places g * ((input.length + 1) * E.card) + 1 := by
  obtain ⟨hfin, hle⟩ := viable_positions (S := S) (input := input) hnodup hu hp E hE
  obtain ⟨ts, n, it', h⟩ := (C65_drains_iff hnodup ho).mpr hfin
  exact ⟨ts, n, it', h, by have := (C65_exact hnodup ho h).2.2; omega⟩

/-- C66: the quadratic bound cannot be improved: for `<s> ::= 'a' <s> | ''` and a text of `n` letters at least
`(n + 1) (n + 2) / 2` rounds are taken. -/
theorem C66_right_recursion {n it} (ho : Opened gRight (.nonterminal ['s']) (List.replicate n 'a') it) :
    ∃ ts m it', DrainsIn it ts m it' ∧ (n + 1) * (n + 2) / 2 < m ∧ m ≤ 5 * ((n + 1) * (n + 2) / 2) + 1 := by
  obtain ⟨ts, m, it', h, hle⟩ := C66_quadratic (by decide) gRight_unambiguous gRight_productive ho
  refine ⟨ts, m, it', h, ?_, by simpa [places, alternatives, gRight] using hle⟩
  have h1 := C65_at_least ho h
  have := gRight_viable n h1.1
  omega

/-- C66: the left-recursive grammar `<s> ::= <s> 'a' | ''` for the same texts takes linearly many rounds, for every input. -/
theorem C66_left_recursion {input it} (ho : Opened gLeft (.nonterminal ['s']) input it) :
    ∃ ts m it', DrainsIn it ts m it' ∧ m ≤ 5 * (input.length + 1) + 1 := by
  obtain ⟨ts, m, it', h, hle⟩ := C66_few_places (by decide) gLeft_unambiguous gLeft_productive ho {0}
    (fun u T hex => by simp [(gLeft_expected hex).1])
  exact ⟨ts, m, it', h, by simpa [places, alternatives, gLeft] using hle⟩

/-- Opened iterators for these theorems. -/
example (n : Nat) : ∃ it, Opened gRight (.nonterminal ['s']) (List.replicate n 'a') it := opened_of (by simp [gRight])
example : ∃ it, Opened gLeft (.nonterminal ['s']) ['a', 'a', 'b'] it := opened_of (by simp [gLeft])

/-- A drained iterator: the left-recursive grammar on "aab". -/
example : ∃ it ts n it', Opened gLeft (.nonterminal ['s']) ['a', 'a', 'b'] it ∧ DrainsIn it ts n it' ∧
    n = {x | Viable gLeft (.nonterminal ['s']) ['a', 'a', 'b'] x}.ncard + 1 ∧ n ≤ 21 := by
  obtain ⟨it, ho⟩ := opened_of (g := gLeft) (S := .nonterminal ['s']) (input := ['a', 'a', 'b']) (by simp [gLeft])
  obtain ⟨ts, n, it', h, hle⟩ := C66_left_recursion ho
  exact ⟨it, ts, n, it', ho, h, (C65_exact (by decide) ho h).2.2, by simpa using hle⟩

/-- A partial derivation that is viable although the text is not in the language. -/
example : Viable gLeft (.nonterminal ['s']) ['a', 'a', 'b'] ⟨[], .nonterminal ['s'], ⟨[.nonterminal ['s'], .terminal ['a']]⟩,
    [.nonterminal (.nonterminal ['s']) (leftKids 2)]⟩ := by
  obtain ⟨e, h1, h2⟩ := leftKids_forest 2
  exact ⟨gLeft_alt1, .start, [.nonterminal ['s']], [.terminal ['a']], ['b'], rfl, .nonterminal h1 h2 .nil,
    by simp [yield, nodeYield, leftKids]⟩

/-- C65: with repeated alternatives there can be more traversals than viable partial derivations: `<a> ::= 'x' | 'x'`. -/
theorem C65_repeated_witness : ∃ it ts n it', Opened gDup (.nonterminal ['a']) ['x'] it ∧ DrainsIn it ts n it' ∧
    {x | Viable gDup (.nonterminal ['a']) ['x'] x}.ncard + 1 < n := by
  obtain ⟨it, it1, it2, ho, hd, hn, hlen⟩ : ∃ it it1 it2, Opened gDup (.nonterminal ['a']) ['x'] it ∧
      Draws it [⟨.nonterminal ['a'], [.terminal ['x']]⟩, ⟨.nonterminal ['a'], [.terminal ['x']]⟩] it1 ∧ Next it1 none it2 ∧
      it2.st.tree.arena.length = 4 :=
    ⟨_, _, _, .deprecatedStarting rfl, .cons ⟨100, rfl⟩ (.cons ⟨100, rfl⟩ .nil), ⟨100, rfl⟩, rfl⟩
  obtain ⟨n, h⟩ := drainsIn_of_draws ho.inv.1 hd hn
  refine ⟨it, _, n, it2, ho, h, ?_⟩
  have hr := C65_rounds ho h
  have hsub : {x | Viable gDup (.nonterminal ['a']) ['x'] x} ⊆
      {⟨[], .nonterminal ['a'], ⟨[.terminal ['x']]⟩, []⟩, ⟨[], .nonterminal ['a'], ⟨[.terminal ['x']]⟩, [.terminal ['x']]⟩} := by
    have halt : ∀ l e, HasAlt gDup l e → l = .nonterminal ['a'] ∧ e = ⟨[.terminal ['x']]⟩ := by
      rintro l e ⟨p, hp, rfl, he⟩
      simp only [gDup, List.mem_singleton] at hp
      subst hp
      simpa using he
    rintro ⟨u, l, e, ns⟩ ⟨ha, hex, pre, post, r, hts, hf, hr⟩
    obtain ⟨h1, h2⟩ := halt _ _ ha
    simp only at h1 h2 hts hf hex
    subst h1 h2
    have hu : u = [] := by
      cases hex with
      | start => rfl
      | @step u l e pre n post ns r hex' ha' hts' _ _ =>
        obtain ⟨_, rfl⟩ := halt _ _ ha'
        have : Term.nonterminal ['a'] ∈ [Term.terminal ['x']] := by simp only at hts'; rw [hts']; simp
        simp at this
    subst hu
    cases pre with
    | nil => cases hf; simp
    | cons a pre =>
      simp only [List.cons_append, List.cons.injEq] at hts
      obtain ⟨rfl, hts⟩ := hts
      have : pre = [] := (List.append_eq_nil_iff.mp hts.symm).1
      subst this
      cases hf with
      | terminal h => cases h; simp
  have := (Set.ncard_le_ncard hsub (Set.toFinite _)).trans (Set.ncard_insert_le _ _)
  simp at this
  omega

/-- C67: for `<s> ::= <s> <s> | 'a'` and a text of `n + 1` letters the iterator returns Catalan-many trees. -/
theorem C67_catalan_trees {n it} (ho : Opened gDouble (.nonterminal ['s']) (List.replicate (n + 1) 'a') it) :
    ∃ ts m it', DrainsIn it ts m it' ∧ ts.Nodup ∧ ts.length = catalan n ∧ catalan n < m := by
  obtain ⟨ts, it1, it2, hd, hn⟩ := (C54_drain_ends_iff ho).mpr (C54_acyclic_no_trap gDouble_acyclic _ _)
  obtain ⟨m, h⟩ := drainsIn_of_draws ho.inv.1 hd hn
  have hnd : ts.Nodup := C04_no_duplicates (by decide) ho hd
  have hset : {t | IsParse gDouble (.nonterminal ['s']) (List.replicate (n + 1) 'a') t} = {t | t ∈ ts} := by
    ext t
    exact (C05_exhausted_exact ho hd hn t).symm
  have hlen : ts.length = catalan n := by
    classical
    have h1 := gDouble_count n
    rw [hset, show {t | t ∈ ts} = ((ts.toFinset : Finset _) : Set _) by ext; simp, Set.ncard_coe_finset,
      List.toFinset_card_of_nodup hnd] at h1
    exact h1
  refine ⟨ts, m, it2, h, hnd, hlen, ?_⟩
  have h1 := C65_at_least ho h
  have h2 := gDouble_viable n []
  simp only [List.append_nil] at h2
  have := h2 h1.1
  omega

/-- C67: whatever follows these letters, draining takes more than Catalan-many rounds. -/
theorem C67_rounds {n rest it ts m it'} (ho : Opened gDouble (.nonterminal ['s']) (List.replicate (n + 1) 'a' ++ rest) it)
    (h : DrainsIn it ts m it') : catalan n < m := by
  have h1 := C65_at_least ho h
  have h2 := gDouble_viable n rest h1.1
  omega

/-- C67: in particular one single call, which returns `None` because the text is not in the language, takes exponentially
many rounds. -/
theorem C67_rejecting {n it} (ho : Opened gDouble (.nonterminal ['s']) (List.replicate (n + 2) 'a' ++ ['b']) it) :
    ∃ m it', NextIn it m none it' ∧ 2 ^ n < m := by
  obtain ⟨ts, it1, it2, hd, hn⟩ := (C54_drain_ends_iff ho).mpr (C54_acyclic_no_trap gDouble_acyclic _ _)
  obtain ⟨m, h⟩ := drainsIn_of_draws ho.inv.1 hd hn
  have hm := C67_rounds ho h
  have hg := catalan_growth n
  cases h with
  | done h => exact ⟨m, it2, h, by omega⟩
  | @step _ _ t _ _ _ _ h' _ =>
    exfalso
    have ht := C01_soundness ho hd t (by simp)
    obtain ⟨hl, ⟨e, ha, hf⟩, hy⟩ := ht
    rw [hl] at ha
    obtain ⟨b, hb⟩ := kidsOf_surj ha hf
    rw [hb, kidsOf_yield] at hy
    have : 'b' ∈ List.replicate (b.numNodes + 1) 'a' := by rw [hy]; simp
    have := List.eq_of_mem_replicate this
    simp at this

example (n : Nat) : ∃ it, Opened gDouble (.nonterminal ['s']) (List.replicate (n + 2) 'a' ++ ['b']) it :=
  opened_of (by simp [gDouble])
example (n : Nat) : ∃ it, Opened gDouble (.nonterminal ['s']) (List.replicate (n + 1) 'a') it :=
  opened_of (by simp [gDouble])

/-- C67: Catalan numbers grow exponentially. -/
theorem C67_exponential (n : Nat) : 2 ^ n ≤ catalan (n + 1) := catalan_growth n

end Bnf.Props
