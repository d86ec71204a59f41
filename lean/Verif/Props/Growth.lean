import Verif.Proofs.Growth
import Verif.Props.Counted

/-! # Property C106: longer texts and larger grammars mean more work -/

set_option autoImplicit false

namespace Bnf.Props
open Bnf Spec

/-- C106: the parser does not look ahead: the partial derivations that it considers for a text, up to a point of the text, do not depend on what follows. -/
theorem C106_no_lookahead {g : Grammar} {S : Term} {w v : Str} (x : Begun) :
    Viable g S w x ↔ Viable g S (w ++ v) x ∧ (x.seen ++ yield x.forest).length ≤ w.length := by
  constructor
  · intro h
    refine ⟨viable_longer h, ?_⟩
    obtain ⟨_, _, pre, post, r, _, _, hr⟩ := h
    rw [hr]
    simp
  · exact fun h => viable_shorter h.1 h.2

/-- C106: if going through all trees of a text ends, then also for each beginning of it. -/
theorem C106_ends_prefix {g S w v it it'} (ho : Opened g S w it) (ho' : Opened g S (w ++ v) it')
    (h : ∃ ts it1 it2, Draws it' ts it1 ∧ Next it1 none it2) : ∃ ts it1 it2, Draws it ts it1 ∧ Next it1 none it2 :=
  (C54_drain_ends_iff ho).mpr fun ht => (C54_drain_ends_iff ho').mp h (trap_longer ht)

/-- C106: and with at most as much work of each kind. -/
theorem C106_prefix {g S w v it it' ts' c' it1'} (hnodup : (alternatives g).Nodup) (ho : Opened g S w it) (ho' : Opened g S (w ++ v) it')
    (h : DrainsWith it' ts' c' it1') : ∃ ts c it1, DrainsWith it ts c it1 ∧
      c.rounds ≤ c'.rounds ∧ c.predicts ≤ c'.predicts ∧ c.matches_ ≤ c'.matches_ ∧ c.tests ≤ c'.tests := by
  obtain ⟨it2, h1, h2⟩ := C105_drains.mp ⟨_, h⟩
  obtain ⟨ts, it3, it4, h3, h4⟩ := C106_ends_prefix ho ho' ⟨_, _, _, h1, h2⟩
  obtain ⟨c, hc⟩ := C105_drains.mpr ⟨_, h3, h4⟩
  exact ⟨ts, c, it4, hc, counts_le hnodup hnodup ho ho' hc h (fun _ _ h => h) fun _ => viable_longer⟩

/-- C106: what the rest of the text adds is the work for the partial derivations that reach into it. -/
theorem C106_prefix_exact {g S w v it it' ts c it1 ts' c' it1'} (hnodup : (alternatives g).Nodup) (ho : Opened g S w it) (ho' : Opened g S (w ++ v) it')
    (h : DrainsWith it ts c it1) (h' : DrainsWith it' ts' c' it1') :
    c'.rounds = c.rounds + {x | Viable g S (w ++ v) x ∧ w.length < (x.seen ++ yield x.forest).length}.ncard := by
  obtain ⟨f, e, _⟩ := C105_exact hnodup ho h
  obtain ⟨f', e', _⟩ := C105_exact hnodup ho' h'
  have hu : {x | Viable g S (w ++ v) x} = {x | Viable g S w x} ∪ {x | Viable g S (w ++ v) x ∧ w.length < (x.seen ++ yield x.forest).length} := by
    ext x
    have := C106_no_lookahead (g := g) (S := S) (w := w) (v := v) x
    simp only [Set.mem_setOf_eq, Set.mem_union, this]
    constructor
    · intro hx
      rcases Nat.lt_or_ge w.length (x.seen ++ yield x.forest).length with hl | hl
      · exact .inr ⟨hx, hl⟩
      · exact .inl ⟨hx, hl⟩
    · rintro (hx | hx) <;> exact hx.1
  rw [e, e', hu, Set.ncard_union_eq ?_ f (f'.subset fun x hx => hx.1)]
  · omega
  · rw [Set.disjoint_left]
    intro x hx hx'
    have := (C106_no_lookahead (g := g) (S := S) (w := w) (v := v) x).mp hx
    have h1 := this.2
    have h2 := hx'.2
    omega

/-- C106: if going through all trees of a text ends, then also with fewer alternatives. -/
theorem C106_ends_smaller {g g' S w it it'} (hs : ∀ l e, HasAlt g l e → HasAlt g' l e) (ho : Opened g S w it) (ho' : Opened g' S w it')
    (h : ∃ ts it1 it2, Draws it' ts it1 ∧ Next it1 none it2) : ∃ ts it1 it2, Draws it ts it1 ∧ Next it1 none it2 :=
  (C54_drain_ends_iff ho).mpr fun ht => (C54_drain_ends_iff ho').mp h (trap_larger hs ht)

/-- C106: and with at most as much work of each kind. -/
theorem C106_smaller {g g' S w it it' ts' c' it1'} (hs : ∀ l e, HasAlt g l e → HasAlt g' l e) (hnodup : (alternatives g).Nodup)
    (hnodup' : (alternatives g').Nodup) (ho : Opened g S w it) (ho' : Opened g' S w it') (h : DrainsWith it' ts' c' it1') :
    ∃ ts c it1, DrainsWith it ts c it1 ∧
      c.rounds ≤ c'.rounds ∧ c.predicts ≤ c'.predicts ∧ c.matches_ ≤ c'.matches_ ∧ c.tests ≤ c'.tests := by
  obtain ⟨it2, h1, h2⟩ := C105_drains.mp ⟨_, h⟩
  obtain ⟨ts, it3, it4, h3, h4⟩ := C106_ends_smaller hs ho ho' ⟨_, _, _, h1, h2⟩
  obtain ⟨c, hc⟩ := C105_drains.mpr ⟨_, h3, h4⟩
  exact ⟨ts, c, it4, hc, counts_le hnodup hnodup' ho ho' hc h hs fun _ => viable_larger hs⟩

/-- C106: trees are kept when alternatives are added. -/
theorem C106_trees {g g' S w it it' ts it1 it2 ts' it1' it2'} (hs : ∀ l e, HasAlt g l e → HasAlt g' l e) (ho : Opened g S w it)
    (ho' : Opened g' S w it') (hd : Draws it ts it1) (_hn : Next it1 none it2) (hd' : Draws it' ts' it1') (hn' : Next it1' none it2') :
    ∀ t ∈ ts, t ∈ ts' := by
  intro t ht
  obtain ⟨h1, ⟨e, h2, h3⟩, h4⟩ := C01_soundness ho hd t ht
  exact (C05_exhausted_exact ho' hd' hn' t).mpr ⟨h1, ⟨e, hs _ _ h2, isForest_larger hs h3⟩, h4⟩

/-- The trees of a beginning need not be trees of the text: "a" has one and "ab" none, for the same work. -/
example : ∃ it t c it1 it2 c' it3, Opened gLeft (.nonterminal ['s']) ['a'] it ∧ DrainsWith it [t] c it1 ∧
    Opened gLeft (.nonterminal ['s']) (['a'] ++ ['b']) it2 ∧ DrainsWith it2 [] c' it3 ∧ c = ⟨7, 2, 4, 3, 11⟩ ∧ c' = ⟨7, 2, 4, 3, 0⟩ :=
  ⟨_, _, _, _, _, _, _, .deprecatedStarting rfl, .step (n := 100) rfl (.done (n := 100) rfl), .deprecatedStarting rfl, .done (n := 100) rfl, rfl, rfl⟩

/-- A grammar with one alternative less. -/
example : (∀ l e, HasAlt ⟨[⟨.nonterminal ['s'], [⟨[.terminal []]⟩]⟩]⟩ l e → HasAlt gLeft l e) ∧
    (alternatives ⟨[⟨.nonterminal ['s'], [⟨[.terminal []]⟩]⟩]⟩).Nodup ∧ (alternatives gLeft).Nodup := by
  refine ⟨?_, by decide, by decide⟩
  rintro l e ⟨p, hp, rfl, he⟩
  simp only [List.mem_singleton] at hp
  subst hp
  simp only [List.mem_singleton] at he
  subst he
  exact gLeft_alt2

end Bnf.Props
