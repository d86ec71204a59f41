import Verif.Spec.Pumping
import Mathlib.Data.List.Nodup
import Mathlib.Data.List.Perm.Subperm
import Mathlib.Data.Nat.Find
import Mathlib.Data.Set.Finite.List

/-! # Long texts can be pumped -/

set_option autoImplicit false

namespace Bnf.Pump
open Bnf Spec

variable {g : Grammar}

/-- Derivations of a list of terms with the number of nodes and the text. -/
inductive Sz (g : Grammar) : List Term → Nat → Str → Prop
  | nil : Sz g [] 0 []
  | terminal {s ts k w} : Sz g ts k w → Sz g (.terminal s :: ts) k (s ++ w)
  | nonterminal {n e ts j x k w} : HasAlt g (.nonterminal n) e → Sz g e.terms j x → Sz g ts k w →
      Sz g (.nonterminal n :: ts) (j + 1 + k) (x ++ w)

/-- The same where no name occurs below itself, nor a name of `U`. -/
inductive Dis (g : Grammar) : List Str → List Term → Nat → Str → Prop
  | nil {U} : Dis g U [] 0 []
  | terminal {U s ts k w} : Dis g U ts k w → Dis g U (.terminal s :: ts) k (s ++ w)
  | nonterminal {U n e ts j x k w} : n ∉ U → HasAlt g (.nonterminal n) e → Dis g (n :: U) e.terms j x → Dis g U ts k w →
      Dis g U (.nonterminal n :: ts) (j + 1 + k) (x ++ w)

theorem Dis.sz {U ts k w} (h : Dis g U ts k w) : Sz g ts k w := by
  induction h with
  | nil => exact .nil
  | terminal _ ih => exact .terminal ih
  | nonterminal _ ha _ _ ih1 ih2 => exact .nonterminal ha ih1 ih2

/-- Around every derivation of the name `B` a derivation of the terms `ts` with `c` more nodes. -/
def Around (g : Grammar) (ts : List Term) (B : Str) (u z : Str) (c : Nat) : Prop :=
  ∀ k x, Sz g [.nonterminal B] k x → Sz g ts (k + c) (u ++ x ++ z)

theorem sz_single {n k x} : Sz g [.nonterminal n] k x ↔ ∃ e j, HasAlt g (.nonterminal n) e ∧ Sz g e.terms j x ∧ k = j + 1 := by
  constructor
  · intro h
    cases h with
    | @nonterminal _ e _ j x k w ha h1 h2 =>
      cases h2
      exact ⟨e, j, ha, by simpa using h1, by omega⟩
  · rintro ⟨e, j, ha, h, rfl⟩
    have := Sz.nonterminal ha h .nil
    simpa using this

theorem around_terminal {s ts B u z c} (h : Around g ts B u z c) : Around g (.terminal s :: ts) B (s ++ u) z c := by
  intro k x hx
  have := Sz.terminal (s := s) (h k x hx)
  simpa using this

theorem around_rest {n e ts B u z c j y} (ha : HasAlt g (.nonterminal n) e) (hy : Sz g e.terms j y) (h : Around g ts B u z c) :
    Around g (.nonterminal n :: ts) B (y ++ u) z (c + j + 1) := by
  intro k x hx
  have := Sz.nonterminal ha hy (h k x hx)
  have e1 : k + (c + j + 1) = j + 1 + (k + c) := by omega
  rw [e1]
  simpa using this

theorem around_kids {n e ts B u z c j y} (ha : HasAlt g (.nonterminal n) e) (hy : Sz g ts j y) (h : Around g e.terms B u z c) :
    Around g (.nonterminal n :: ts) B u (z ++ y) (c + j + 1) := by
  intro k x hx
  have := Sz.nonterminal ha (h k x hx) hy
  have e1 : k + (c + j + 1) = k + c + 1 + j := by omega
  rw [e1]
  simpa using this

theorem around_first {n ts j y} (hy : Sz g ts j y) : Around g (.nonterminal n :: ts) n [] y j := by
  intro k x hx
  obtain ⟨e, i, ha, h, rfl⟩ := sz_single.mp hx
  have := Sz.nonterminal ha h hy
  simpa using this

/-- Either the name occurs, or it may be forbidden in addition. -/
theorem occurs {U ts k w} (h : Dis g U ts k w) (n : Str) : ∀ U', (∀ x, x ∈ U' ↔ x = n ∨ x ∈ U) → Dis g U' ts k w ∨
    ∃ u x z c j, Around g ts n u z c ∧ Sz g [.nonterminal n] j x ∧ w = u ++ x ++ z ∧ k = j + c := by
  induction h with
  | nil => exact fun _ _ => .inl .nil
  | terminal _ ih =>
    intro U' hU
    rcases ih U' hU with h | ⟨u, x, z, c, j, h1, h2, rfl, rfl⟩
    · exact .inl (.terminal h)
    · exact .inr ⟨_, x, z, c, j, around_terminal h1, h2, by simp, rfl⟩
  | @nonterminal U m e ts j x k w hm ha hk hr ih1 ih2 =>
    intro U' hU
    by_cases hmn : m = n
    · subst hmn
      exact .inr ⟨[], x, w, k, j + 1, around_first hr.sz, sz_single.mpr ⟨e, j, ha, hk.sz, rfl⟩, by simp, rfl⟩
    · rcases ih1 (m :: U') (by
        intro y
        simp only [List.mem_cons, hU]
        tauto) with h | ⟨u, y, z, c, i, h1, h2, rfl, rfl⟩
      · rcases ih2 U' hU with h' | ⟨u, y, z, c, i, h1, h2, rfl, rfl⟩
        · refine .inl (.nonterminal ?_ ha h h')
          rw [hU]
          tauto
        · exact .inr ⟨_, y, z, _, i, around_rest ha hk.sz h1, h2, by simp, by omega⟩
      · exact .inr ⟨u, y, _, _, i, around_kids ha hr.sz h1, h2, by simp, by omega⟩

theorem le_foldr_max {a : Nat} : ∀ {l : List Nat}, a ∈ l → a ≤ l.foldr max 1
  | b :: l, h => by
    rcases List.mem_cons.mp h with rfl | h
    · exact Nat.le_max_left ..
    · exact Nat.le_trans (le_foldr_max h) (Nat.le_max_right ..)

theorem one_le_largest : 1 ≤ largest g := by
  unfold largest
  generalize g.productions.flatMap _ = l
  cases l with
  | nil => exact Nat.le_refl _
  | cons a l =>
    induction l generalizing a with
    | nil => exact Nat.le_max_right ..
    | cons b l ih => exact Nat.le_trans (ih b) (Nat.le_max_right ..)

theorem altChars_le {A e} (h : HasAlt g A e) : altChars e.terms ≤ largest g := by
  obtain ⟨p, hp, _, he⟩ := h
  refine le_foldr_max (List.mem_flatMap.mpr ⟨p, hp, List.mem_map.mpr ⟨e, he, rfl⟩⟩)

/-- The names that are defined. -/
def names (g : Grammar) : List Term := g.productions.map (·.lhs)

theorem used_le {U : List Str} (hn : U.Nodup) (hs : ∀ n ∈ U, .nonterminal n ∈ names g) : U.length ≤ g.productions.length := by
  have h1 : (U.map Term.nonterminal).Nodup := hn.map fun _ _ h => by injection h
  have h2 : U.map Term.nonterminal ⊆ names g := by
    intro t ht
    obtain ⟨n, hn, rfl⟩ := List.mem_map.mp ht
    exact hs n hn
  have := (h1.subperm h2).length_le
  simpa [names] using this

theorem dis_length {U ts k w} (h : Dis g U ts k w) (hn : U.Nodup) (hs : ∀ n ∈ U, .nonterminal n ∈ names g) :
    w.length ≤ altChars ts * largest g ^ (g.productions.length - U.length) := by
  induction h with
  | nil => simp
  | @terminal U s ts k w _ ih =>
    have := ih hn hs
    have hw : altChars (.terminal s :: ts) = s.length + altChars ts := by simp [altChars, termChars]
    rw [hw, List.length_append, Nat.add_mul]
    have h1 : s.length ≤ s.length * largest g ^ (g.productions.length - U.length) :=
      Nat.le_mul_of_pos_right _ (Nat.pow_pos one_le_largest)
    omega
  | @nonterminal U n e ts j x k w hm ha _ _ ih1 ih2 =>
    have i2 := ih2 hn hs
    have hn' : (n :: U).Nodup := List.nodup_cons.mpr ⟨hm, hn⟩
    have hs' : ∀ m ∈ n :: U, Term.nonterminal m ∈ names g := by
      intro m hm'
      rcases List.mem_cons.mp hm' with rfl | hm'
      · obtain ⟨p, hp, he, _⟩ := ha
        exact List.mem_map.mpr ⟨p, hp, he⟩
      · exact hs m hm'
    have i1 := ih1 hn' hs'
    have hl := used_le hn' hs'
    simp only [List.length_cons] at i1 hl
    have hw : altChars (.nonterminal n :: ts) = 1 + altChars ts := by simp [altChars, termChars]
    rw [hw, List.length_append, Nat.add_mul]
    have h1 : altChars e.terms * largest g ^ (g.productions.length - (U.length + 1)) ≤ largest g ^ (g.productions.length - U.length) := by
      have e1 : g.productions.length - U.length = (g.productions.length - (U.length + 1)) + 1 := by omega
      rw [e1, Nat.pow_succ, Nat.mul_comm]
      exact Nat.mul_le_mul_left _ (altChars_le ha)
    omega

/-- A name below itself, with the text between. -/
structure Repeats (g : Grammar) (ts : List Term) (k : Nat) (w : Str) (B u v x y z : Str) (c1 c2 j : Nat) : Prop where
  outer : Around g ts B u z c1
  inner : Around g [.nonterminal B] B v y c2
  more : 1 ≤ c2
  core : Sz g [.nonterminal B] j x
  text : w = u ++ v ++ x ++ y ++ z
  size : k = j + c1 + c2
  short : (v ++ x ++ y).length ≤ pumpBound g

theorem repeats {ts k w} (h : Sz g ts k w) : Dis g [] ts k w ∨ ∃ B u v x y z c1 c2 j, Repeats g ts k w B u v x y z c1 c2 j := by
  induction h with
  | nil => exact .inl .nil
  | terminal _ ih =>
    rcases ih with h | ⟨B, u, v, x, y, z, c1, c2, j, h⟩
    · exact .inl (.terminal h)
    · exact .inr ⟨B, _, v, x, y, z, c1, c2, j, around_terminal h.outer, h.inner, h.more, h.core, by rw [h.text]; simp, h.size, h.short⟩
  | @nonterminal n e ts j x k w ha hk hr ih1 ih2 =>
    rcases ih1 with h | ⟨B, u, v, x, y, z, c1, c2, i, h⟩
    · rcases ih2 with h' | ⟨B, u, v, x, y, z, c1, c2, i, h'⟩
      · rcases occurs h n [n] (by simp) with h1 | ⟨v, x', y, c, i, h1, h2, rfl, rfl⟩
        · exact .inl (.nonterminal (by simp) ha h1 h')
        · refine .inr ⟨n, [], v, x', y, w, k, c + 0 + 1, i, around_first hr, ?_, by omega, h2, by simp, by omega, ?_⟩
          · have := around_kids (ts := []) ha .nil h1
            simpa using this
          · have hl := dis_length h List.nodup_nil (by simp)
            refine Nat.le_trans hl ?_
            unfold pumpBound
            rw [Nat.pow_succ, Nat.mul_comm]
            exact Nat.mul_le_mul_left _ (altChars_le ha)
      · exact .inr ⟨B, _, v, x, y, z, _, c2, i, around_rest ha hk h'.outer, h'.inner, h'.more, h'.core, by rw [h'.text]; simp,
          by rw [h'.size]; omega, h'.short⟩
    · exact .inr ⟨B, u, v, x, y, _, _, c2, i, around_kids ha hr h.outer, h.inner, h.more, h.core, by rw [h.text]; simp,
        by rw [h.size]; omega, h.short⟩

theorem times_snoc (k : Nat) (v : Str) : times k v ++ v = v ++ times k v := by
  induction k with
  | zero => simp [times]
  | succ k ih => rw [times, List.append_assoc, ih]

theorem iterate {B v y c} (h : Around g [.nonterminal B] B v y c) {j x} (hx : Sz g [.nonterminal B] j x) (k : Nat) :
    ∃ i, Sz g [.nonterminal B] i (times k v ++ x ++ times k y) := by
  induction k with
  | zero => exact ⟨j, by simpa [times] using hx⟩
  | succ k ih =>
    obtain ⟨i, hi⟩ := ih
    refine ⟨i + c, ?_⟩
    have := h i _ hi
    rw [times, times, ← times_snoc k y]
    simpa using this

/-! ### In terms of derivation trees -/

theorem forest_sz {ts ns} (h : IsForest g ts ns) : ∃ k, Sz g ts k (yield ns) := by
  induction h with
  | nil => exact ⟨0, by simpa [yield] using Sz.nil⟩
  | terminal _ ih =>
    obtain ⟨k, hk⟩ := ih
    exact ⟨k, by simpa [yield, nodeYield] using Sz.terminal hk⟩
  | nonterminal ha _ _ ih1 ih2 =>
    obtain ⟨j, hj⟩ := ih1
    obtain ⟨k, hk⟩ := ih2
    exact ⟨_, by simpa [yield, nodeYield] using Sz.nonterminal ha hj hk⟩

theorem sz_forest {ts k w} (h : Sz g ts k w) : ∃ ns, IsForest g ts ns ∧ yield ns = w := by
  induction h with
  | nil => exact ⟨[], .nil, rfl⟩
  | terminal _ ih =>
    obtain ⟨ns, h, rfl⟩ := ih
    exact ⟨_, .terminal h, by simp [yield, nodeYield]⟩
  | nonterminal ha _ _ ih1 ih2 =>
    obtain ⟨ks, hk, rfl⟩ := ih1
    obtain ⟨ns, h, rfl⟩ := ih2
    exact ⟨_, .nonterminal ha hk h, by simp [yield, nodeYield]⟩

theorem derives_sz {S w} : Derives g S w ↔ ∃ k e, HasAlt g S e ∧ Sz g e.terms k w := by
  constructor
  · rintro ⟨t, rfl, ⟨e, ha, hf⟩, rfl⟩
    obtain ⟨k, hk⟩ := forest_sz hf
    exact ⟨k, e, ha, hk⟩
  · rintro ⟨k, e, ha, hk⟩
    obtain ⟨ns, hn, rfl⟩ := sz_forest hk
    exact ⟨⟨S, ns⟩, rfl, ⟨e, ha, hn⟩, rfl⟩

theorem pumping {S w} (h : Derives g S w) (hl : pumpBound g < w.length) : ∃ u v x y z, w = u ++ v ++ x ++ y ++ z ∧ v ++ y ≠ [] ∧
    (v ++ x ++ y).length ≤ pumpBound g ∧ ∀ k, Derives g S (u ++ times k v ++ x ++ times k y ++ z) := by
  classical
  have hex := derives_sz.mp h
  obtain ⟨e, ha, hs⟩ := Nat.find_spec hex
  have hmin := fun {m} (hm : m < Nat.find hex) => Nat.find_min hex hm
  generalize Nat.find hex = k at hs hmin
  rcases repeats hs with hd | ⟨B, u, v, x, y, z, c1, c2, j, hr⟩
  · exfalso
    have := dis_length hd List.nodup_nil (by simp)
    have h2 : altChars e.terms * largest g ^ (g.productions.length - ([] : List Str).length) ≤ pumpBound g := by
      unfold pumpBound
      rw [Nat.pow_succ, Nat.mul_comm]
      exact Nat.mul_le_mul_left _ (altChars_le ha)
    omega
  · refine ⟨u, v, x, y, z, hr.text, ?_, hr.short, fun i => ?_⟩
    · intro hvy
      obtain ⟨rfl, rfl⟩ := List.append_eq_nil_iff.mp hvy
      have h1 := hr.outer j x hr.core
      have hw := hr.text
      simp only [List.append_nil] at hw
      rw [← hw] at h1
      exact hmin (m := j + c1) (by have := hr.size; have := hr.more; omega) ⟨e, ha, h1⟩
    · obtain ⟨m, hm⟩ := iterate hr.inner hr.core i
      have := hr.outer m _ hm
      exact derives_sz.mpr ⟨m + c1, e, ha, by simpa using this⟩

theorem length_times (k : Nat) (v : Str) : (times k v).length = k * v.length := by
  induction k with
  | zero => simp [times]
  | succ k ih => rw [times, List.length_append, ih, Nat.add_mul]; omega

/-- A shorter text, but not by much. -/
theorem shorten {S w} (h : Derives g S w) (hl : pumpBound g < w.length) : ∃ w', Derives g S w' ∧ w'.length < w.length ∧
    w.length ≤ w'.length + pumpBound g := by
  obtain ⟨u, v, x, y, z, rfl, hne, hs, hk⟩ := pumping h hl
  refine ⟨_, hk 0, ?_, ?_⟩
  · have : 0 < (v ++ y).length := List.length_pos_iff.mpr hne
    simp [times] at this ⊢
    omega
  · simp [times] at hs ⊢
    omega

/-! ### Finitely many characters -/

/-- The characters of the terminals. -/
def chars (g : Grammar) : List Char :=
  g.productions.flatMap fun p => p.rhs.flatMap fun e => e.terms.flatMap fun t => match t with
    | .terminal u => u
    | .nonterminal _ => []

theorem mem_chars {c : Char} : c ∈ chars g ↔ ∃ p ∈ g.productions, ∃ e ∈ p.rhs, ∃ u, .terminal u ∈ e.terms ∧ c ∈ u := by
  unfold chars
  simp only [List.mem_flatMap]
  constructor
  · rintro ⟨p, hp, e, he, t, ht, hc⟩
    cases t with
    | terminal u => exact ⟨p, hp, e, he, u, ht, hc⟩
    | nonterminal u => cases hc
  · rintro ⟨p, hp, e, he, u, ht, hc⟩
    exact ⟨p, hp, e, he, _, ht, hc⟩

theorem sz_chars {ts k w} (h : Sz g ts k w) (hts : ∀ u, .terminal u ∈ ts → ∀ c ∈ u, c ∈ chars g) : ∀ c ∈ w, c ∈ chars g := by
  induction h with
  | nil => intro c hc; cases hc
  | terminal _ ih =>
    intro c hc
    rcases List.mem_append.mp hc with hc | hc
    · exact hts _ (List.mem_cons_self ..) c hc
    · exact ih (fun u hu => hts u (List.mem_cons_of_mem _ hu)) c hc
  | nonterminal ha _ _ ih1 ih2 =>
    intro c hc
    rcases List.mem_append.mp hc with hc | hc
    · obtain ⟨p, hp, _, he⟩ := ha
      exact ih1 (fun u hu d hd => mem_chars.mpr ⟨p, hp, _, he, u, hu, hd⟩) c hc
    · exact ih2 (fun u hu => hts u (List.mem_cons_of_mem _ hu)) c hc

theorem derives_chars {S w} (h : Derives g S w) : ∀ c ∈ w, c ∈ chars g := by
  obtain ⟨k, e, ⟨p, hp, _, he⟩, hs⟩ := derives_sz.mp h
  exact sz_chars hs fun u hu d hd => mem_chars.mpr ⟨p, hp, _, he, u, hu, hd⟩

theorem finite_upto (S : Term) (n : Nat) : {w | Derives g S w ∧ w.length ≤ n}.Finite := by
  have hf : Finite {c // c ∈ chars g} := List.finite_toSet _ |>.to_subtype
  refine ((List.finite_length_le {c // c ∈ chars g} n).image (List.map Subtype.val)).subset ?_
  rintro w ⟨hw, hl⟩
  refine ⟨w.attachWith _ (derives_chars hw), ?_, ?_⟩
  · simpa using hl
  · simp

/-! ### Equally many of three letters -/

theorem abc_sorted (n : Nat) : (abc n).Pairwise fun p q => p.toNat ≤ q.toNat := by
  unfold abc
  have hr : ∀ c : Char, (List.replicate n c).Pairwise fun p q => p.toNat ≤ q.toNat := by
    intro c
    rw [List.pairwise_replicate]
    exact .inr (Nat.le_refl _)
  rw [List.pairwise_append, List.pairwise_append]
  refine ⟨⟨hr _, hr _, ?_⟩, hr _, ?_⟩
  · intro p hp q hq
    rw [List.eq_of_mem_replicate hp, List.eq_of_mem_replicate hq]
    decide
  · intro p hp q hq
    rw [List.eq_of_mem_replicate hq]
    rcases List.mem_append.mp hp with hp | hp <;> rw [List.eq_of_mem_replicate hp] <;> decide

theorem abc_count (n : Nat) {c : Char} (hc : c = 'a' ∨ c = 'b' ∨ c = 'c') : (abc n).count c = n := by
  unfold abc
  rcases hc with rfl | rfl | rfl <;> simp [List.count_append, List.count_replicate]

theorem abc_mem {n : Nat} {c : Char} (h : c ∈ abc n) : c = 'a' ∨ c = 'b' ∨ c = 'c' := by
  unfold abc at h
  rcases List.mem_append.mp h with h | h
  · rcases List.mem_append.mp h with h | h
    · exact .inl (List.eq_of_mem_replicate h)
    · exact .inr (.inl (List.eq_of_mem_replicate h))
  · exact .inr (.inr (List.eq_of_mem_replicate h))

theorem char_eq {p q : Char} (h1 : p.toNat ≤ q.toNat) (h2 : q.toNat ≤ p.toNat) : p = q := by
  apply Char.ext
  apply UInt32.toNat_inj.mp
  exact Nat.le_antisymm h1 h2

/-- A repeated part of a sorted text is a single letter. -/
theorem one_letter {a v b : Str} (h : (a ++ (v ++ v) ++ b).Pairwise fun p q : Char => p.toNat ≤ q.toNat) :
    ∀ p ∈ v, ∀ q ∈ v, p = q := by
  have h1 := (List.pairwise_append.mp (List.pairwise_append.mp h).1).2.1
  have h2 := (List.pairwise_append.mp h1).2.2
  exact fun p hp q hq => char_eq (h2 p hp q hq) (h2 q hq p hp)

theorem abc_length (n : Nat) : (abc n).length = 3 * n := by
  unfold abc
  simp
  omega

theorem no_abc (S : Term) : ¬ ∀ w, Derives g S w ↔ ∃ n, w = abc n := by
  intro h
  obtain ⟨u, v, x, y, z, hw, hne, _, hk⟩ := pumping ((h (abc (pumpBound g + 1))).mpr ⟨_, rfl⟩) (by rw [abc_length]; omega)
  obtain ⟨m, hm⟩ := (h _).mp (hk 2)
  have hs := abc_sorted m
  rw [← hm] at hs
  simp only [times, List.append_nil] at hs hm
  have hv : ∀ p ∈ v, ∀ q ∈ v, p = q := one_letter (a := u) (b := x ++ (y ++ y) ++ z) (by simpa using hs)
  have hy : ∀ p ∈ y, ∀ q ∈ y, p = q := one_letter (a := u ++ (v ++ v) ++ x) (b := z) (by simpa using hs)
  have hc2 : ∀ c, (abc m).count c = (abc (pumpBound g + 1)).count c + (v.count c + y.count c) := by
    intro c
    rw [← hm, hw]
    simp only [List.count_append]
    omega
  -- the letters of the repeated parts
  have hmem : ∀ c ∈ v ++ y, c = 'a' ∨ c = 'b' ∨ c = 'c' := by
    intro c hc
    refine abc_mem (n := pumpBound g + 1) ?_
    rw [hw]
    rcases List.mem_append.mp hc with hc | hc <;> simp [hc]
  have hpos : m ≠ pumpBound g + 1 := by
    intro he
    obtain ⟨c, cs, hcs⟩ := List.exists_cons_of_ne_nil hne
    have hc : c ∈ v ++ y := by rw [hcs]; simp
    have h1 := hc2 c
    rw [he] at h1
    have h2 : 0 < (v ++ y).count c := List.count_pos_iff.mpr hc
    rw [List.count_append] at h2
    omega
  have hall : ∀ c, (c = 'a' ∨ c = 'b' ∨ c = 'c') → c ∈ v ++ y := by
    intro c hc
    have h1 := hc2 c
    rw [abc_count m hc, abc_count _ hc] at h1
    apply List.count_pos_iff.mp
    rw [List.count_append]
    omega
  have ha := List.mem_append.mp (hall 'a' (.inl rfl))
  have hb := List.mem_append.mp (hall 'b' (.inr (.inl rfl)))
  have hc := List.mem_append.mp (hall 'c' (.inr (.inr rfl)))
  have d1 : ('a' : Char) ≠ 'b' := by decide
  have d2 : ('a' : Char) ≠ 'c' := by decide
  have d3 : ('b' : Char) ≠ 'c' := by decide
  rcases ha with ha | ha <;> rcases hb with hb | hb
  · exact d1 (hv _ ha _ hb)
  · rcases hc with hc | hc
    · exact d2 (hv _ ha _ hc)
    · exact d3 (hy _ hb _ hc)
  · rcases hc with hc | hc
    · exact d3 (hv _ hb _ hc)
    · exact d2 (hy _ ha _ hc)
  · exact d1 (hy _ ha _ hb)

/-! ### Two grammars -/

/-- `p` derives the texts with equally many `x` and `y`, and `q` those of `z` only. -/
def half (first : List Term) (x y z : Char) : Grammar :=
  ⟨[⟨.nonterminal ['s'], [⟨first⟩]⟩,
    ⟨.nonterminal ['p'], [⟨[.terminal []]⟩, ⟨[.terminal [x], .nonterminal ['p'], .terminal [y]]⟩]⟩,
    ⟨.nonterminal ['q'], [⟨[.terminal []]⟩, ⟨[.terminal [z], .nonterminal ['q']]⟩]⟩]⟩

variable {first : List Term} {x y z : Char}

theorem half_s {e} : HasAlt (half first x y z) (.nonterminal ['s']) e ↔ e = ⟨first⟩ := by
  simp [HasAlt, half]

theorem half_p {e} : HasAlt (half first x y z) (.nonterminal ['p']) e ↔
    e = ⟨[.terminal []]⟩ ∨ e = ⟨[.terminal [x], .nonterminal ['p'], .terminal [y]]⟩ := by
  simp [HasAlt, half]

theorem half_q {e} : HasAlt (half first x y z) (.nonterminal ['q']) e ↔
    e = ⟨[.terminal []]⟩ ∨ e = ⟨[.terminal [z], .nonterminal ['q']]⟩ := by
  simp [HasAlt, half]

theorem sz_nil {k w} (h : Sz g [] k w) : k = 0 ∧ w = [] := by
  cases h
  exact ⟨rfl, rfl⟩

theorem sz_terminal {s ts k w} (h : Sz g (.terminal s :: ts) k w) : ∃ w', w = s ++ w' ∧ Sz g ts k w' := by
  cases h with
  | terminal h => exact ⟨_, rfl, h⟩

theorem sz_cons {n ts k w} (h : Sz g (.nonterminal n :: ts) k w) :
    ∃ i j a b, Sz g [.nonterminal n] i a ∧ Sz g ts j b ∧ w = a ++ b ∧ k = i + j := by
  cases h with
  | nonterminal ha h1 h2 => exact ⟨_, _, _, _, sz_single.mpr ⟨_, _, ha, h1, rfl⟩, h2, rfl, rfl⟩

theorem p_text : ∀ {k w}, Sz (half first x y z) [.nonterminal ['p']] k w → ∃ n, w = List.replicate n x ++ List.replicate n y := by
  intro k
  induction k using Nat.strong_induction_on with
  | _ k ih =>
    intro w h
    obtain ⟨e, j, ha, h0, rfl⟩ := sz_single.mp h
    clear h
    rcases half_p.mp ha with rfl | rfl
    · obtain ⟨w', rfl, h1⟩ := sz_terminal h0
      obtain ⟨_, rfl⟩ := sz_nil h1
      exact ⟨0, rfl⟩
    · obtain ⟨w', rfl, h⟩ := sz_terminal h0
      obtain ⟨i, j', a, b, h1, h2, rfl, rfl⟩ := sz_cons h
      obtain ⟨w', rfl, h3⟩ := sz_terminal h2
      obtain ⟨rfl, rfl⟩ := sz_nil h3
      obtain ⟨n, rfl⟩ := ih i (by omega) h1
      refine ⟨n + 1, ?_⟩
      rw [List.replicate_succ, List.replicate_succ' (a := y)]
      simp

theorem text_p (n : Nat) : ∃ k, Sz (half first x y z) [.nonterminal ['p']] k (List.replicate n x ++ List.replicate n y) := by
  induction n with
  | zero => exact ⟨_, sz_single.mpr ⟨_, 0, half_p.mpr (.inl rfl), .terminal (s := []) .nil, rfl⟩⟩
  | succ n ih =>
    obtain ⟨k, hk⟩ := ih
    refine ⟨_, sz_single.mpr ⟨_, k + 0, half_p.mpr (.inr rfl), ?_, rfl⟩⟩
    have h := around_first (n := ['p']) (Sz.terminal (s := [y]) (Sz.nil (g := half first x y z))) k _ hk
    have := Sz.terminal (s := [x]) h
    rw [List.replicate_succ, List.replicate_succ' (a := y)]
    simpa using this

theorem q_text : ∀ {k w}, Sz (half first x y z) [.nonterminal ['q']] k w → ∃ n, w = List.replicate n z := by
  intro k
  induction k using Nat.strong_induction_on with
  | _ k ih =>
    intro w h
    obtain ⟨e, j, ha, h0, rfl⟩ := sz_single.mp h
    clear h
    rcases half_q.mp ha with rfl | rfl
    · obtain ⟨w', rfl, h1⟩ := sz_terminal h0
      obtain ⟨_, rfl⟩ := sz_nil h1
      exact ⟨0, rfl⟩
    · obtain ⟨w', rfl, h⟩ := sz_terminal h0
      obtain ⟨n, rfl⟩ := ih j (by omega) h
      exact ⟨n + 1, rfl⟩

theorem text_q (n : Nat) : ∃ k, Sz (half first x y z) [.nonterminal ['q']] k (List.replicate n z) := by
  induction n with
  | zero => exact ⟨_, sz_single.mpr ⟨_, 0, half_q.mpr (.inl rfl), .terminal (s := []) .nil, rfl⟩⟩
  | succ n ih =>
    obtain ⟨k, hk⟩ := ih
    exact ⟨_, sz_single.mpr ⟨_, k, half_q.mpr (.inr rfl), Sz.terminal (s := [z]) hk, rfl⟩⟩

theorem pair_iff {a b : Str} {w} (hf : first = [.nonterminal a, .nonterminal b]) :
    Derives (half first x y z) (.nonterminal ['s']) w ↔
      ∃ i j v w', Sz (half first x y z) [.nonterminal a] i v ∧ Sz (half first x y z) [.nonterminal b] j w' ∧ w = v ++ w' := by
  subst hf
  rw [derives_sz]
  constructor
  · rintro ⟨k, e, he, h⟩
    rw [half_s.mp he] at h
    obtain ⟨i, j, v, w', h1, h2, rfl, _⟩ := sz_cons h
    exact ⟨i, j, v, w', h1, h2, rfl⟩
  · rintro ⟨i, j, v, w', h1, h2, rfl⟩
    have := around_first h2 i v h1
    exact ⟨_, _, half_s.mpr rfl, by simpa using this⟩

/-- Equally many `a` and `b`, then `c`. -/
def leftPair : Grammar := half [.nonterminal ['p'], .nonterminal ['q']] 'a' 'b' 'c'
/-- Some `a`, then equally many `b` and `c`. -/
def rightPair : Grammar := half [.nonterminal ['q'], .nonterminal ['p']] 'b' 'c' 'a'

theorem left_iff {w} : Derives leftPair (.nonterminal ['s']) w ↔
    ∃ n m, w = List.replicate n 'a' ++ List.replicate n 'b' ++ List.replicate m 'c' := by
  unfold leftPair
  rw [pair_iff rfl]
  constructor
  · rintro ⟨i, j, v, w', h1, h2, rfl⟩
    obtain ⟨n, rfl⟩ := p_text h1
    obtain ⟨m, rfl⟩ := q_text h2
    exact ⟨n, m, rfl⟩
  · rintro ⟨n, m, rfl⟩
    obtain ⟨i, h1⟩ := text_p n
    obtain ⟨j, h2⟩ := text_q m
    exact ⟨i, j, _, _, h1, h2, rfl⟩

theorem right_iff {w} : Derives rightPair (.nonterminal ['s']) w ↔
    ∃ n m, w = List.replicate m 'a' ++ (List.replicate n 'b' ++ List.replicate n 'c') := by
  unfold rightPair
  rw [pair_iff rfl]
  constructor
  · rintro ⟨i, j, v, w', h1, h2, rfl⟩
    obtain ⟨n, rfl⟩ := q_text h1
    obtain ⟨m, rfl⟩ := p_text h2
    exact ⟨m, n, rfl⟩
  · rintro ⟨n, m, rfl⟩
    obtain ⟨i, h1⟩ := text_q m
    obtain ⟨j, h2⟩ := text_p n
    exact ⟨i, j, _, _, h1, h2, rfl⟩

theorem both_iff {w} : (Derives leftPair (.nonterminal ['s']) w ∧ Derives rightPair (.nonterminal ['s']) w) ↔ ∃ n, w = abc n := by
  rw [left_iff, right_iff]
  constructor
  · rintro ⟨⟨n, m, rfl⟩, ⟨n', m', h⟩⟩
    refine ⟨n, ?_⟩
    have hb := congrArg (List.count 'b') h
    have hc := congrArg (List.count 'c') h
    simp [List.count_append, List.count_replicate] at hb hc
    have : m = n := by omega
    rw [this, abc]
  · rintro ⟨n, rfl⟩
    exact ⟨⟨n, n, rfl⟩, n, n, by simp [abc]⟩

end Bnf.Pump
