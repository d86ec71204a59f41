import Verif.Proofs.Strategies

/-! # Every derivation can be generated -/

set_option autoImplicit false

namespace Bnf
open Spec

variable {σ : Type} {g : Grammar} {S : Strategy σ} {f : Callback σ}

/-- A random source that plays back a list of numbers. -/
def scriptRng : Rng (List Nat) (List Nat) where
  index r n := (r.headD 0 % n, r.tail)
  u32 r n := (r.headD 0 % n, r.tail)
  fill r := (r, [])
  fromSeed s := s
  index_lt _ _ h := Nat.mod_lt _ h
  u32_lt _ _ h := Nat.mod_lt _ h

theorem find_of_undeclared {n : Str} (h : ¬ Declared g n) : findProduction n g.productions 0 = none := by
  cases hf : findProduction n g.productions 0 with
  | none => rfl
  | some x =>
    obtain ⟨a, p⟩ := x
    obtain ⟨b, af, h1, h2, _⟩ := findProduction_some hf
    exact absurd ⟨p, by rw [h1]; simp, h2⟩ h

theorem traverse_script {push : Nat → σ → σ} (hpush : ∀ i st a p d, i < p.rhs.length → S.choose (push i st) a p d = (getExpression p i, st))
    (hf : ∀ st n t, f st n t = (true, st)) {ts w L} (h : Expansion g ts w L) :
    ∃ (script : List Nat) (N : Nat), ∀ d r st, evalTerms (fun nt st => traverse g S f N nt d st) ts r (script.foldr push st) =
      .done (.ok (r ++ w)) st := by
  induction h with
  | nil => exact ⟨[], 0, fun d r st => by simp [evalTerms]⟩
  | terminal _ ih =>
    obtain ⟨sc, N, h⟩ := ih
    exact ⟨sc, N, fun d r st => by rw [evalTerms, h]; simp⟩
  | undeclared hd _ ih =>
    obtain ⟨sc, N, h⟩ := ih
    refine ⟨sc, N + 1, fun d r st => ?_⟩
    rw [evalTerms, traverse_undeclared (find_of_undeclared hd)]
    simp only
    rw [evalTerms_more (trav := fun nt st => traverse g S f N nt d st) (fun nt st hne => traverse_more (Nat.le_succ _) hne) _ _ _
      (by rw [h]; simp), h]
    simp
  | @nonterminal n v w p e ts L M hp hn he _ _ ih1 ih2 =>
    obtain ⟨sc1, N1, h1⟩ := ih1
    obtain ⟨sc2, N2, h2⟩ := ih2
    obtain ⟨i, hi, rfl⟩ := List.mem_iff_getElem.1 he
    obtain ⟨a, hfind⟩ := find_of_isFirst hp
    have step : ∀ d st, traverse g S f (N1 + 1) n d (push i (sc1.foldr push st)) = .done (.ok v) st := by
      intro d st
      rw [traverse_choose hfind (by rw [noChoice_iff]; exact hn), hpush i _ a p d hi, getExpression_lt hi]
      simp only [h1, hf, List.nil_append, if_true]
    refine ⟨i :: (sc1 ++ sc2), max (N1 + 1) N2, fun d r st => ?_⟩
    rw [evalTerms]
    have e1 : (i :: (sc1 ++ sc2)).foldr push st = push i (sc1.foldr push (sc2.foldr push st)) := by simp
    rw [e1]
    have s1 := step d (sc2.foldr push st)
    have : traverse g S f (max (N1 + 1) N2) n d (push i (sc1.foldr push (sc2.foldr push st))) =
        .done (.ok v) (sc2.foldr push st) := by
      rw [traverse_more (Nat.le_max_left _ _) (by rw [s1]; simp), s1]
    rw [this]
    simp only
    have s2 := h2 d (r ++ v) st
    rw [evalTerms_more (trav := fun nt st => traverse g S f N2 nt d st) (fun nt st hne => traverse_more (Nat.le_max_right _ _) hne) _ _ _
      (by rw [s2]; simp), s2]
    simp

theorem alt_first (hU : (g.productions.map (·.lhs)).Nodup) (hE : ∀ p ∈ g.productions, p.rhs ≠ [⟨[]⟩]) (n : Str) (e : Expression)
    (h : HasAlt g (.nonterminal n) e) : ∃ p, IsFirst g n p ∧ e ∈ p.rhs ∧ ¬ NoChoice p := by
  obtain ⟨p, hp, hl, he⟩ := h
  refine ⟨p, ?_, he, ?_⟩
  · obtain ⟨b, a, hb⟩ := List.append_of_mem hp
    refine ⟨b, a, hb, hl, fun q hq hql => ?_⟩
    rw [hb, List.map_append, List.map_cons, List.nodup_append] at hU
    exact hU.2.2 q.lhs (List.mem_map.2 ⟨q, hq, rfl⟩) p.lhs (by simp) (by rw [hql, hl])
  · rintro (h | h)
    · rw [h] at he; simp at he
    · exact hE p hp h

theorem forest_expansion (hg : ∀ n e, HasAlt g (.nonterminal n) e → ∃ p, IsFirst g n p ∧ e ∈ p.rhs ∧ ¬ NoChoice p) {ts ns}
    (h : IsForest g ts ns) : ∃ L, Expansion g ts (Spec.yield ns) L := by
  induction h with
  | nil => exact ⟨_, .nil⟩
  | terminal _ ih => obtain ⟨L, h⟩ := ih; exact ⟨L, .terminal h⟩
  | nonterminal ha _ _ ih1 ih2 =>
    obtain ⟨L, h1⟩ := ih1
    obtain ⟨M, h2⟩ := ih2
    obtain ⟨p, hp, he, hn⟩ := hg _ _ ha
    exact ⟨_, .nonterminal hp hn he h1 h2⟩

theorem derives_expansion (hU : (g.productions.map (·.lhs)).Nodup) (hE : ∀ p ∈ g.productions, p.rhs ≠ [⟨[]⟩])
    {start s : Str} (h : Derives g (.nonterminal start) s) : ∃ L, Expansion g [.nonterminal start] s L := by
  obtain ⟨t, hr, ⟨e, ha, hforest⟩, hy⟩ := h
  rw [hr] at ha
  obtain ⟨L, hL⟩ := forest_expansion (alt_first hU hE) (IsForest.nonterminal (ts := []) ha hforest .nil)
  simp only [Spec.yield, nodeYield, List.append_nil, hy] at hL
  exact ⟨L, hL⟩

theorem generate_script {start : Str} (hs : g.startingTerm = some (.nonterminal start))
    (hprod : ∃ w, Derives g (.nonterminal start) w) {s : Str} {L} (h : Expansion g [.nonterminal start] s L) :
    ∃ seed fuel st, g.generate scriptRng fuel seed = .done (.ok s) st := by
  let S : Strategy (List Nat × Unit) := ⟨fun st a p d => (((RandomWalk scriptRng).choose st.1 a p d).1, (((RandomWalk scriptRng).choose st.1 a p d).2, st.2))⟩
  let f : Callback (List Nat × Unit) := fun st _ _ => (true, (st.1, ()))
  have hpush : ∀ i (st : List Nat × Unit) a p d, i < p.rhs.length → S.choose (i :: st.1, st.2) a p d = (getExpression p i, st) := by
    intro i st a p d hi
    simp only [S, RandomWalk, randomIndex, scriptRng]
    rw [if_neg (by omega)]
    simp [Nat.mod_eq_of_lt hi]
  obtain ⟨sc, N, h⟩ := traverse_script (S := S) (f := f) (push := fun i st => (i :: st.1, st.2)) hpush (fun st n t => rfl) h
  have hfold : ∀ sc : List Nat, sc.foldr (fun i (st : List Nat × Unit) => (i :: st.1, st.2)) ([], ()) = (sc, ()) := by
    intro sc; induction sc with
    | nil => rfl
    | cons i sc ih => simp [ih]
  have h0 := h 0 [] ([], ())
  rw [hfold, evalTerms] at h0
  have hterm : g.terminates = some true := by
    obtain ⟨b, h1, h2⟩ := terminates_spec g
    rw [h1, h2.2 (.inr ⟨_, hs, hprod⟩)]
  refine ⟨sc, N, ([], ()), ?_⟩
  have hgen : g.generate scriptRng N sc = traverse g S f N start 0 (sc, ()) := by
    unfold Grammar.generate Grammar.generateCallback Grammar.generateSeededCallback Grammar.generateWith
    rw [hterm]
    unfold Grammar.startingTerm at hs
    cases hp : g.productions with
    | nil => simp [hp] at hs
    | cons p ps =>
      simp [hp] at hs
      simp only [hs]
      rfl
  rw [hgen]
  cases hv : traverse g S f N start 0 (sc, ()) with
  | fuel => rw [hv] at h0; simp at h0
  | panic => rw [hv] at h0; simp at h0
  | done r st =>
    rw [hv] at h0
    cases r with
    | error e => simp at h0
    | ok v =>
      simp only [evalTerms, GenRes.done.injEq, Except.ok.injEq] at h0
      obtain ⟨h3, h4⟩ := h0
      simp at h3
      rw [h3, h4]

end Bnf
