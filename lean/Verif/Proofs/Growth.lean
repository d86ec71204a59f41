import Verif.Proofs.Counted

/-! Longer texts and larger grammars mean more work. -/

set_option autoImplicit false

namespace Bnf
open Spec

theorem expected_longer {g : Grammar} {S : Term} {w v u : Str} {T : Term} (h : Expected g S w u T) : Expected g S (w ++ v) u T := by
  induction h with
  | start => exact .start
  | @step u l e pre n post ns r _ ha ht hf hr ih => exact .step (r := r ++ v) ih ha ht hf (by rw [hr]; simp)

theorem viable_longer {g : Grammar} {S : Term} {w v : Str} {x : Begun} (h : Viable g S w x) : Viable g S (w ++ v) x := by
  obtain ⟨h1, h2, pre, post, r, h3, h4, h5⟩ := h
  exact ⟨h1, expected_longer h2, pre, post, r ++ v, h3, h4, by rw [h5]; simp⟩

theorem prefix_of_short {w v u r : Str} (h : w ++ v = u ++ r) (hl : u.length ≤ w.length) : ∃ r', w = u ++ r' := by
  obtain ⟨a, h1⟩ | ⟨a, h1⟩ := List.append_eq_append_iff.mp h
  · obtain ⟨h1, _⟩ := h1
    have : a = [] := by
      have := congrArg List.length h1
      simp at this
      exact List.eq_nil_of_length_eq_zero (by omega)
    exact ⟨[], by rw [h1, this]; simp⟩
  · exact ⟨a, h1.1⟩

theorem expected_shorter {g : Grammar} {S : Term} {w v u : Str} {T : Term} (h : Expected g S (w ++ v) u T) (hl : u.length ≤ w.length) :
    Expected g S w u T := by
  induction h with
  | start => exact .start
  | step _ ha ht hf hr ih =>
    obtain ⟨r', hr'⟩ := prefix_of_short hr hl
    exact .step (ih (by simp at hl; omega)) ha ht hf hr'

theorem viable_shorter {g : Grammar} {S : Term} {w v : Str} {x : Begun} (h : Viable g S (w ++ v) x)
    (hl : (x.seen ++ Spec.yield x.forest).length ≤ w.length) : Viable g S w x := by
  obtain ⟨h1, h2, pre, post, r, h3, h4, h5⟩ := h
  obtain ⟨r', hr'⟩ := prefix_of_short h5 hl
  exact ⟨h1, expected_shorter h2 (by simp at hl; omega), pre, post, r', h3, h4, hr'⟩

theorem trap_longer {g : Grammar} {S : Term} {w v : Str} (h : Trap g S w) : Trap g S (w ++ v) := by
  obtain ⟨u, n, v', r, h1, h2, h3, h4⟩ := h
  exact ⟨u, n, v', r ++ v, expected_longer h1, h2, h3, by rw [h4]; simp⟩

section
variable {g g' : Grammar} (hs : ∀ l e, HasAlt g l e → HasAlt g' l e)
include hs

theorem isForest_larger {ts ns} (h : IsForest g ts ns) : IsForest g' ts ns := by
  induction h with
  | nil => exact .nil
  | terminal _ ih => exact .terminal ih
  | nonterminal ha _ _ ih1 ih2 => exact .nonterminal (hs _ _ ha) ih1 ih2

theorem expected_larger {S : Term} {w u : Str} {T : Term} (h : Expected g S w u T) : Expected g' S w u T := by
  induction h with
  | start => exact .start
  | step _ ha ht hf hr ih => exact .step ih (hs _ _ ha) ht (isForest_larger hs hf) hr

theorem viable_larger {S : Term} {w : Str} {x : Begun} (h : Viable g S w x) : Viable g' S w x := by
  obtain ⟨h1, h2, pre, post, r, h3, h4, h5⟩ := h
  exact ⟨hs _ _ h1, expected_larger hs h2, pre, post, r, h3, isForest_larger hs h4, h5⟩

theorem derives_larger {T : Term} {w : Str} (h : Derives g T w) : Derives g' T w := by
  obtain ⟨t, h1, ⟨e, h2, h3⟩, h4⟩ := h
  exact ⟨t, h1, ⟨e, hs _ _ h2, isForest_larger hs h3⟩, h4⟩

theorem nullable_larger {ts : List Term} (h : Nullable g ts) : Nullable g' ts := by
  obtain ⟨ns, h1, h2⟩ := h
  exact ⟨ns, isForest_larger hs h1, h2⟩

theorem trap_larger {S : Term} {w : Str} (h : Trap g S w) : Trap g' S w := by
  obtain ⟨u, n, v', r, h1, h2, h3, h4⟩ := h
  refine ⟨u, n, v', r, expected_larger hs h1, ?_, derives_larger hs h3, h4⟩
  unfold Cyclic at h2 ⊢
  refine Relation.TransGen.lift id ?_ _ _ h2
  intro a b hab
  obtain ⟨e, pre, post, k1, k2, k3, k4⟩ := hab
  exact ⟨e, pre, post, hs _ _ k1, k2, nullable_larger hs k3, nullable_larger hs k4⟩

end

/-- Comparison of the counts by sets of partial derivations. -/
theorem counts_le {g g' : Grammar} {S S' : Term} {w w' : Str} {it it' it1 it1' : ParseTreeIter} {ts ts' : List ParseTree} {c c' : Calls}
    (hn : (alternatives g).Nodup) (hn' : (alternatives g').Nodup) (ho : Opened g S w it) (ho' : Opened g' S' w' it')
    (hd : DrainsWith it ts c it1) (hd' : DrainsWith it' ts' c' it1') (hs : ∀ l e, HasAlt g l e → HasAlt g' l e)
    (hv : ∀ x, Viable g S w x → Viable g' S' w' x) :
    c.rounds ≤ c'.rounds ∧ c.predicts ≤ c'.predicts ∧ c.matches_ ≤ c'.matches_ ∧ c.tests ≤ c'.tests := by
  obtain ⟨hi, hq, rfl⟩ := drained_counts ho hd
  obtain ⟨hi', hq', rfl⟩ := drained_counts ho' hd'
  obtain ⟨f1, f2⟩ := arena_ge hi hq
  obtain ⟨f1', f2'⟩ := arena_ge hi' hq'
  have f3 := arena_le hn hi f1
  have f3' := arena_le hn' hi' f1'
  have wt : ∀ {g : Grammar} {S : Term} {w : Str} {st : PState}, Inv (ParseGrammar.newUnchecked g) w S st → ∀ (k : Nat) tr x, st.tree.arena[k]? = some tr →
      ItemOf g w st k x → (waitsTerminal tr = true ↔ ∃ s, x.Waits (.terminal s)) := by
    intro g S w st hi k tr x hk hx
    obtain ⟨tr', htr, hw, _⟩ := itemOf_entry hi hx
    rw [hk] at htr; injection htr with htr; subst htr
    simp only [hw]
    unfold waitsTerminal
    cases tr.unmatched with
    | nil => simp
    | cons T ts => cases T <;> simp
  have ms : ∀ {g : Grammar} {S : Term} {w : Str} {st : PState}, Inv (ParseGrammar.newUnchecked g) w S st → ∀ (k : Nat) tr x, st.tree.arena[k]? = some tr →
      ItemOf g w st k x → (tr.src.isSome = true ↔ x.forest ≠ []) := by
    intro g S w st hi k tr x hk hx
    obtain ⟨tr', htr, _, hs⟩ := itemOf_entry hi hx
    rw [hk] at htr; injection htr with htr; subst htr
    exact hs.symm
  obtain ⟨_, t2⟩ := countP_viable hn hi hq waitsTerminal (fun x => ∃ s, x.Waits (.terminal s)) (wt hi)
  obtain ⟨t1', t2'⟩ := countP_viable hn' hi' hq' waitsTerminal (fun x => ∃ s, x.Waits (.terminal s)) (wt hi')
  obtain ⟨_, m2⟩ := countP_viable hn hi hq (·.src.isSome) (fun x => x.forest ≠ []) (ms hi)
  obtain ⟨m1', m2'⟩ := countP_viable hn' hi' hq' (·.src.isSome) (fun x => x.forest ≠ []) (ms hi')
  obtain ⟨_, p2⟩ := awaited_viable hn hi hq
  obtain ⟨p1', p2'⟩ := awaited_viable hn' hi' hq'
  simp only
  rw [t2, t2', m2, m2', p2, p2']
  refine ⟨?_, Set.ncard_le_ncard ?_ p1', Set.ncard_le_ncard ?_ m1', Set.ncard_le_ncard ?_ t1'⟩
  · have := Set.ncard_le_ncard (s := {x | Viable g S w x}) (t := {x | Viable g' S' w' x}) (fun x hx => hv x hx) f1'
    omega
  · rintro ⟨x, e⟩ ⟨h1, n, h2, h3⟩
    exact ⟨hv x h1, n, h2, hs _ _ h3⟩
  · rintro x ⟨h1, h2⟩; exact ⟨hv x h1, h2⟩
  · rintro x ⟨h1, h2⟩; exact ⟨hv x h1, h2⟩

end Bnf
