import Verif.Proofs.WorkCopies
import Verif.Props.Work

/-! # Property C65 for grammars that repeat alternatives -/

set_option autoImplicit false

namespace Bnf.Props
open Bnf Spec

/-- C65: in any grammar the drained iterator holds, for every viable partial derivation, as many traversals as there are
ways to choose the listed copies of the alternatives used in it, and draining takes one round for each and one more. -/
theorem C65_exact_repeated {g S input it ts n it'} (ho : Opened g S input it) (h : DrainsIn it ts n it') :
    {x | Viable g S input x}.Finite ∧
      it'.st.tree.arena.length = ∑ᶠ x ∈ {x | Viable g S input x}, timesListed g x.lhs x.alt * forestCopies g x.forest ∧
      n = (∑ᶠ x ∈ {x | Viable g S input x}, timesListed g x.lhs x.alt * forestCopies g x.forest) + 1 := by
  obtain ⟨it1, hd, hn⟩ := drainsIn_draws h
  obtain ⟨_, _, hi1, _⟩ := hd.rounds ho.inv.1
  obtain ⟨_, hi2, hq, _⟩ := Next.none_rounds hi1 hn
  have h1 := arena_eq hi2.inv hq
  have h2 := C65_rounds ho h
  simp only [begunCopies] at h1
  exact ⟨(arena_ge hi2.inv hq).1, h1, by omega⟩

/-- C65: draining is possible exactly if there are finitely many viable partial derivations, in any grammar. -/
theorem C65_drains_iff_any {g S input it} (ho : Opened g S input it) :
    (∃ ts n it', DrainsIn it ts n it') ↔ {x | Viable g S input x}.Finite := by
  constructor
  · rintro ⟨ts, n, it', h⟩
    exact (C65_at_least ho h).1
  · intro hfin
    obtain ⟨ts, it1, it2, h1, h2⟩ := drain_ends (fun st hst => arena_le_copies hst hfin) ho.inv.1
    obtain ⟨n, h⟩ := drainsIn_of_draws ho.inv.1 h1 h2
    exact ⟨ts, n, it2, h⟩

/-- C65: in no state, reached by any calls, are there more traversals, in any grammar. -/
theorem C65_memory_repeated {g S input it it'} (ho : Opened g S input it) (hfin : {x | Viable g S input x}.Finite)
    (hr : Reach it it') :
    it'.st.tree.arena.length ≤
      ∑ᶠ x ∈ {x | Viable g S input x}, timesListed g x.lhs x.alt * forestCopies g x.forest :=
  arena_le_copies (hr.inv ho.inv.1).inv hfin

/-- A drained iterator of a grammar with a repeated alternative, `<a> ::= 'x' | 'x'` on "x": two partial derivations, each
counted twice, and five rounds. -/
example : ∃ it ts n it', Opened gDup (.nonterminal ['a']) ['x'] it ∧ DrainsIn it ts n it' ∧ n = 5 ∧
    ∑ᶠ x ∈ {x | Viable gDup (.nonterminal ['a']) ['x'] x}, timesListed gDup x.lhs x.alt * forestCopies gDup x.forest = 4 := by
  obtain ⟨it, it1, it2, ho, hd, hn, hlen⟩ : ∃ it it1 it2, Opened gDup (.nonterminal ['a']) ['x'] it ∧
      Draws it [⟨.nonterminal ['a'], [.terminal ['x']]⟩, ⟨.nonterminal ['a'], [.terminal ['x']]⟩] it1 ∧ Next it1 none it2 ∧
      it2.st.tree.arena.length = 4 :=
    ⟨_, _, _, .deprecatedStarting rfl, .cons ⟨100, rfl⟩ (.cons ⟨100, rfl⟩ .nil), ⟨100, rfl⟩, rfl⟩
  obtain ⟨n, h⟩ := drainsIn_of_draws ho.inv.1 hd hn
  obtain ⟨_, h1, h2⟩ := C65_exact_repeated ho h
  exact ⟨it, _, n, it2, ho, h, by omega, by omega⟩

/-- The two partial derivations, and how often each is counted. -/
example : timesListed gDup (.nonterminal ['a']) ⟨[.terminal ['x']]⟩ * forestCopies gDup [] = 2 ∧
    timesListed gDup (.nonterminal ['a']) ⟨[.terminal ['x']]⟩ * forestCopies gDup [.terminal ['x']] = 2 := by
  simp [timesListed, gDup, forestCopies, nodeCopies]

end Bnf.Props
