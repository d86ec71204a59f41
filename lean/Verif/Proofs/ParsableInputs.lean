import Verif.Spec.PropertyTests
import Mathlib.Logic.Relation

/-! # Lemmas about the sentences of the grammars in `tests/parse_input.rs` -/

set_option autoImplicit false

namespace Bnf
open Spec

/-- Strings that fit a sequence of terms, where `L n` are strings for the nonterminal `n`. -/
inductive Fits (L : Str → Str → Prop) : List Term → Str → Prop
  | nil : Fits L [] []
  | terminal {u ts w} : Fits L ts w → Fits L (.terminal u :: ts) (u ++ w)
  | nonterminal {n v ts w} : L n v → Fits L ts w → Fits L (.nonterminal n :: ts) (v ++ w)

theorem fits_forest {g : Grammar} {L : Str → Str → Prop} (h : ∀ n e w, HasAlt g (.nonterminal n) e → Fits L e.terms w → L n w) {ts ns}
    (hf : IsForest g ts ns) : Fits L ts (yield ns) := by
  induction hf with
  | nil => exact .nil
  | terminal _ ih => exact .terminal ih
  | nonterminal ha _ _ ihk iht => exact .nonterminal (h _ _ _ ha ihk) iht

theorem fits_derives {g : Grammar} {L : Str → Str → Prop} (h : ∀ n e w, HasAlt g (.nonterminal n) e → Fits L e.terms w → L n w) {n w}
    (hd : Derives g (.nonterminal n) w) : L n w := by
  obtain ⟨⟨l, r⟩, hr, ⟨e, ha, hf⟩, hy⟩ := hd
  simp at hr hy; subst hr hy
  exact h _ _ _ ha (fits_forest h hf)

theorem fits_nil {L : Str → Str → Prop} {w} (h : Fits L [] w) : w = [] := by cases h; rfl
theorem fits_terminal {L : Str → Str → Prop} {u ts w} (h : Fits L (.terminal u :: ts) w) : ∃ v, w = u ++ v ∧ Fits L ts v := by
  cases h with | terminal h => exact ⟨_, rfl, h⟩
theorem fits_nonterminal {L : Str → Str → Prop} {n ts w} (h : Fits L (.nonterminal n :: ts) w) : ∃ x v, w = x ++ v ∧ L n x ∧ Fits L ts v := by
  cases h with | nonterminal h1 h2 => exact ⟨_, _, rfl, h1, h2⟩

theorem nullable_terminal {g : Grammar} {ts : List Term} (h : Nullable g ts) : ∀ u, .terminal u ∈ ts → u = [] := by
  obtain ⟨ns, hf, hy⟩ := h
  induction hf with
  | nil => simp
  | terminal _ ih =>
    simp only [yield, nodeYield, List.append_eq_nil_iff] at hy
    intro u hu
    rcases List.mem_cons.1 hu with hu | hu
    · injection hu with hu; rw [hu, hy.1]
    · exact ih hy.2 u hu
  | nonterminal _ _ _ _ ih =>
    simp only [yield, List.append_eq_nil_iff] at hy
    intro u hu
    rcases List.mem_cons.1 hu with hu | hu
    · cases hu
    · exact ih hy.2 u hu

theorem acyclic_of_rank {g : Grammar} (rank : Str → Nat) (h : ∀ n e, HasAlt g (.nonterminal n) e → ∀ pre m post,
    e.terms = pre ++ .nonterminal m :: post → (∀ u, .terminal u ∈ pre ∨ .terminal u ∈ post → u = []) → rank m < rank n) : Acyclic g := by
  have key : ∀ n m, Relation.TransGen (UnitStep g) n m → rank m < rank n := by
    have step : ∀ n m, UnitStep g n m → rank m < rank n := by
      rintro n m ⟨e, pre, post, ha, he, h1, h2⟩
      exact h n e ha pre m post he fun u hu => hu.elim (nullable_terminal h1 u) (nullable_terminal h2 u)
    intro n m ht
    induction ht with
    | single hs => exact step _ _ hs
    | tail _ hs ih => have := step _ _ hs; omega
  intro n hn
  have := key n n hn
  omega

theorem getTo_ascii : ∀ {s : Str} {n : Nat}, (∀ c ∈ s, c.utf8Size = 1) → n ≤ s.length → getTo s n = some (s.take n)
  | s, 0, _, _ => by cases s <;> rfl
  | [], n + 1, _, h => by simp at h
  | c :: s, n + 1, ha, h => by
    have hc := ha c (by simp)
    rw [getTo, hc]
    have : ¬ n + 1 < 1 := by omega
    rw [if_neg this, Nat.add_sub_cancel, getTo_ascii (fun c hc => ha c (by simp [hc])) (by simpa using h)]
    rfl

theorem byteLen_ascii : ∀ {s : Str}, (∀ c ∈ s, c.utf8Size = 1) → byteLen s = s.length
  | [], _ => rfl
  | c :: s, ha => by
    have hc := ha c (by simp)
    have := byteLen_ascii (s := s) fun c hc => ha c (by simp [hc])
    simp only [byteLen, hc, List.length_cons, this]
    omega

/-! ## Alternatives -/

theorem abc_alt {l e} (h : HasAlt gramAbc l e) : l = .nonterminal ['x'] ∧ ∃ c, e = ⟨[.terminal [c]]⟩ ∧ c.utf8Size = 1 := by
  obtain ⟨p, hp, rfl, he⟩ := h
  simp only [gramAbc, List.mem_singleton] at hp
  subst hp
  simp only [List.mem_cons, List.not_mem_nil, or_false] at he
  rcases he with rfl | rfl | rfl <;> exact ⟨rfl, _, rfl, rfl⟩

theorem ab_alt {l e} (h : HasAlt gramAb l e) : l = .nonterminal ['a', 'b'] ∧
    (e = ⟨[.terminal ['a'], .terminal ['b']]⟩ ∨ e = ⟨[.terminal ['a'], .nonterminal ['a', 'b'], .terminal ['b']]⟩) := by
  obtain ⟨p, hp, rfl, he⟩ := h
  simp only [gramAb, List.mem_singleton] at hp
  subst hp
  simp only [List.mem_cons, List.not_mem_nil, or_false] at he
  exact ⟨rfl, he⟩

theorem list_alt {l e} (h : HasAlt gramList l e) : (l = .nonterminal ['l', 'i', 's', 't'] ∧
    (e = ⟨[.nonterminal ['d', 'i', 'g', 'i', 't']]⟩ ∨ e = ⟨[.nonterminal ['d', 'i', 'g', 'i', 't'], .terminal [','], .nonterminal ['l', 'i', 's', 't']]⟩)) ∨
    (l = .nonterminal ['d', 'i', 'g', 'i', 't'] ∧ ∃ c, e = ⟨[.terminal [c]]⟩ ∧ c.utf8Size = 1) := by
  obtain ⟨p, hp, rfl, he⟩ := h
  simp only [gramList, List.mem_cons, List.not_mem_nil, or_false] at hp
  rcases hp with rfl | rfl
  · simp only [List.mem_cons, List.not_mem_nil, or_false] at he
    exact .inl ⟨rfl, he⟩
  · simp only [List.mem_cons, List.not_mem_nil, or_false] at he
    rcases he with rfl | rfl | rfl <;> exact .inr ⟨rfl, _, rfl, rfl⟩

theorem abc_acyclic : Acyclic gramAbc := by
  apply acyclic_of_rank fun _ => 0
  intro n e ha pre m post he _
  obtain ⟨_, c, rfl, _⟩ := abc_alt ha
  have : Term.nonterminal m ∈ (⟨[Term.terminal [c]]⟩ : Expression).terms := by rw [he]; simp
  simp at this

theorem ab_acyclic : Acyclic gramAb := by
  apply acyclic_of_rank fun _ => 0
  intro n e ha pre m post he hu
  obtain ⟨_, rfl | rfl⟩ := ab_alt ha
  · have : Term.nonterminal m ∈ (⟨[Term.terminal ['a'], .terminal ['b']]⟩ : Expression).terms := by rw [he]; simp
    simp at this
  · have : Term.terminal ['a'] ∈ pre ++ .nonterminal m :: post := by rw [← he]; simp
    have := hu ['a'] (by simpa using this)
    simp at this

theorem list_acyclic : Acyclic gramList := by
  apply acyclic_of_rank fun n => n.length % 5
  intro n e ha pre m post he hu
  rcases list_alt ha with ⟨h1, rfl | rfl⟩ | ⟨_, c, rfl, _⟩
  · have : Term.nonterminal m ∈ (⟨[Term.nonterminal ['d', 'i', 'g', 'i', 't']]⟩ : Expression).terms := by rw [he]; simp
    simp at this h1; subst this h1; decide
  · have : Term.terminal [','] ∈ pre ++ .nonterminal m :: post := by rw [← he]; simp
    have := hu [','] (by simpa using this)
    simp at this
  · have : Term.nonterminal m ∈ (⟨[Term.terminal [c]]⟩ : Expression).terms := by rw [he]; simp
    simp at this

/-! ## Sentences -/

theorem abc_sentence {n w} (h : Derives gramAbc (.nonterminal n) w) : w.length = 1 ∧ ∀ c ∈ w, c.utf8Size = 1 := by
  refine fits_derives (L := fun _ w => w.length = 1 ∧ ∀ c ∈ w, c.utf8Size = 1) ?_ h
  intro n e w ha hf
  obtain ⟨_, c, rfl, hc⟩ := abc_alt ha
  obtain ⟨v1, rfl, hf1⟩ := fits_terminal hf
  rw [fits_nil hf1]
  simp [hc]

theorem ab_sentence {n w} (h : Derives gramAb (.nonterminal n) w) : ∃ k, w = List.replicate (k + 1) 'a' ++ List.replicate (k + 1) 'b' := by
  refine fits_derives (L := fun _ w => ∃ k, w = List.replicate (k + 1) 'a' ++ List.replicate (k + 1) 'b') ?_ h
  intro n e w ha hf
  obtain ⟨_, rfl | rfl⟩ := ab_alt ha
  · obtain ⟨v1, rfl, hf1⟩ := fits_terminal hf
    obtain ⟨v2, rfl, hf2⟩ := fits_terminal hf1
    rw [fits_nil hf2]
    exact ⟨0, rfl⟩
  · obtain ⟨v1, rfl, hf1⟩ := fits_terminal hf
    obtain ⟨x, v2, rfl, ⟨k, rfl⟩, hf2⟩ := fits_nonterminal hf1
    obtain ⟨v3, rfl, hf3⟩ := fits_terminal hf2
    rw [fits_nil hf3]
    refine ⟨k + 1, ?_⟩
    rw [List.replicate_succ (n := k + 1), List.replicate_succ' (n := k + 1) (a := 'b')]
    simp

theorem list_sentence {n w} (h : Derives gramList (.nonterminal n) w) : w.length % 2 = 1 ∧ ∀ c ∈ w, c.utf8Size = 1 := by
  refine fits_derives (L := fun _ w => w.length % 2 = 1 ∧ ∀ c ∈ w, c.utf8Size = 1) ?_ h
  intro n e w ha hf
  rcases list_alt ha with ⟨_, rfl | rfl⟩ | ⟨_, c, rfl, hc⟩
  · obtain ⟨x, v1, rfl, hx, hf1⟩ := fits_nonterminal hf
    rw [fits_nil hf1, List.append_nil]
    exact hx
  · obtain ⟨x, v1, rfl, hx, hf1⟩ := fits_nonterminal hf
    obtain ⟨v2, rfl, hf2⟩ := fits_terminal hf1
    obtain ⟨y, v3, rfl, hy, hf3⟩ := fits_nonterminal hf2
    rw [fits_nil hf3]
    constructor
    · have := hx.1; have := hy.1
      simp only [List.length_append, List.length_singleton, List.length_nil]; omega
    · intro c hc
      simp only [List.append_nil, List.mem_append, List.mem_singleton] at hc
      rcases hc with hc | rfl | hc
      · exact hx.2 c hc
      · rfl
      · exact hy.2 c hc
  · obtain ⟨v1, rfl, hf1⟩ := fits_terminal hf
    rw [fits_nil hf1]
    simp [hc]

/-- A cut sentence of `gramAb` is not a sentence. -/
theorem ab_cut {k : Nat} (h : 50 < (k + 1) + (k + 1)) {n} :
    ¬ Derives gramAb (.nonterminal n) ((List.replicate (k + 1) 'a' ++ List.replicate (k + 1) 'b').take 50) := by
  intro hd
  obtain ⟨j, hj⟩ := ab_sentence hd
  have ha := congrArg (List.count 'a') hj
  have hl := congrArg List.length hj
  rw [List.take_append, List.take_replicate, List.take_replicate, List.count_append, List.count_append, List.count_replicate_self,
    List.count_replicate_self, List.count_replicate, List.count_replicate] at ha
  simp at ha hl
  omega

end Bnf
