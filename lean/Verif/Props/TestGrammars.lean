import Verif.Proofs.TestMath
import Verif.Proofs.TestSmall
import Verif.Proofs.TextMain
import Verif.Props.Chart
import Verif.Props.Order
import Verif.Props.Termination
import Verif.Props.Mean

/-! # Property C113: the grammars of the parser tests, for every input

The tests in `tests/parse_input.rs` parse one input with each grammar and compare the trees with stored ones. -/

set_option autoImplicit false

namespace Bnf.Props
open Bnf Spec Samples

/-- C113: the texts in the tests denote the grammars written out in `Spec/TestGrammars.lean`. -/
theorem C113_texts (f : Char → Bool) : ∀ sg ∈ testGrammars, Grammar.fromStr f sg.1 = some (.ok sg.2) := by
  have h : ∀ sg ∈ testGrammars, Grammar.parseFrom BNF sg.1 = some (.ok sg.2) := by decide +kernel
  intro sg hsg
  exact fromStr_of_BNF (h sg hsg)

/-- C113: collecting all trees ends for every input and starting term, except with three of the grammars. -/
theorem C113_ends : ∀ sg ∈ testGrammars, sg.2 ≠ gramRecursiveNestedInfinite → sg.2 ≠ gramEmptyFirstNested → sg.2 ≠ gramEmptyNoopInfinite →
    ∀ {S input it}, Opened sg.2 S input it → ∃ ts, Collects it ts := by
  intro sg hsg h1 h2 h3 S input it ho
  have hac : Acyclic sg.2 := by
    simp only [testGrammars, List.mem_cons, List.not_mem_nil, or_false] at hsg
    rcases hsg with rfl | rfl | rfl | rfl | rfl | rfl | rfl | rfl | rfl | rfl | rfl | rfl | rfl | rfl | rfl | rfl | rfl | rfl | rfl | rfl |
      rfl | rfl | rfl | rfl
    · exact gramDnaLeftRecursive_acyclic
    · exact gramDnaRightRecursive_acyclic
    · exact gramDnaRightRecursive_acyclic
    · exact gramAmbiguous_acyclic
    · exact absurd rfl h1
    · exact gramEmptyRightRecursive_acyclic
    · exact gramEmptyLeftRecursive_acyclic
    · exact gramCompleteEmpty_acyclic
    · exact gramEmpty_acyclic
    · exact gramNestedEmptyPost_acyclic
    · exact gramNestedEmptyPre_acyclic
    · exact gramNestedEmptyPreAndPost_acyclic
    · exact gramEmptyInline_acyclic
    · exact gramEmptyAmbiguous_acyclic
    · exact absurd rfl h2
    · exact gramOptionalWhitespace_acyclic
    · exact gramQualifiedWhitespace_acyclic
    · exact absurd rfl h3
    · exact gramMath_acyclic
    · exact gramSharedNonterminalFailure_acyclic
    · exact gramSwapLeftRightRecursionLeft_acyclic
    · exact gramSwapLeftRightRecursionRight_acyclic
    · exact gramSharedNullableNonterminal_acyclic
    · exact gramBranchingAndOverlappingParseTrees_acyclic
  obtain ⟨ts, it1, it2, hd, hn⟩ := C06_terminates_acyclic hac ho
  exact ⟨ts, it1, it2, hd, hn⟩

/-- The collected trees, up to order, when all derivations are known. -/
theorem collects_perm {g S input it} (hac : Acyclic g) (hnd : (g.productions.flatMap fun p => p.rhs.map fun e => (p.lhs, e)).Nodup)
    (ho : Opened g S input it) (L : List ParseTree) (hL : L.Nodup) (h : ∀ t, t ∈ L ↔ IsParse g S input t) :
    ∃ ts, Collects it ts ∧ ts.Perm L := by
  obtain ⟨ts, it1, it2, hd, hn⟩ := C06_terminates_acyclic hac ho
  exact ⟨ts, ⟨it1, it2, hd, hn⟩, (List.perm_ext_iff_of_nodup (C04_no_duplicates hnd ho hd) hL).mpr fun t =>
    (C05_exhausted_exact ho hd hn t).trans (h t).symm⟩

theorem collects_one {g S input it} (hac : Acyclic g) (hnd : (g.productions.flatMap fun p => p.rhs.map fun e => (p.lhs, e)).Nodup)
    (ho : Opened g S input it) (t : ParseTree) (h : ∀ t', IsParse g S input t' ↔ t' = t) : Collects it [t] := by
  obtain ⟨ts, h1, h2⟩ := collects_perm hac hnd ho [t] (by simp) (by simp [h])
  rwa [List.perm_singleton.mp h2] at h1

theorem collects_none {g S input it} (hac : Acyclic g) (hnd : (g.productions.flatMap fun p => p.rhs.map fun e => (p.lhs, e)).Nodup)
    (ho : Opened g S input it) (h : ∀ t, ¬ IsParse g S input t) : Collects it [] := by
  obtain ⟨ts, h1, h2⟩ := collects_perm hac hnd ho [] (by simp) (by simp [h])
  rwa [List.perm_nil.mp h2] at h1

/-- What is collected depends only on the grammar, the starting term and the input. -/
theorem collects_same {g S input it it'} (ho : Opened g S input it) (ho' : Opened g S input it') {ts} (h : Collects it ts) : Collects it' ts :=
  (C80_end ho' ts).mpr ((C80_end ho ts).mp h)

/-- C113: `dna_right_recursive`, `parse_dna`, and with the same grammar `dna_annotated_grammar_parses_input`: a non-empty sequence of bases has
exactly one tree, nested to the right; nothing else has one. -/
theorem C113_dna_right {input it} (ho : Opened gramDnaRightRecursive (.nonterminal dna) input it) :
    (∀ c s, input = c :: s → (∀ d ∈ input, IsBase d) → Collects it [⟨.nonterminal dna, dnaRight c s⟩]) ∧
    ((input = [] ∨ ∃ d ∈ input, ¬ IsBase d) → Collects it []) := by
  constructor
  · rintro c s rfl hb
    refine collects_one gramDnaRightRecursive_acyclic (by decide +kernel) ho _ fun t => ?_
    rw [isParse_iff]
    simp only [right_kids_iff]
    constructor
    · rintro ⟨_, rfl, ⟨c', s', _, rfl⟩, hy⟩
      rw [dnaRight_yield] at hy
      cases hy; rfl
    · rintro rfl
      exact ⟨_, rfl, ⟨c, s, hb, rfl⟩, dnaRight_yield c s⟩
  · intro h
    refine collects_none gramDnaRightRecursive_acyclic (by decide +kernel) ho fun t ht => ?_
    obtain ⟨_, rfl, hk, hy⟩ := isParse_iff.mp ht
    obtain ⟨c', s', hb, rfl⟩ := right_kids_iff.mp hk
    rw [dnaRight_yield] at hy
    subst hy
    rcases h with h | ⟨d, hd, hn⟩
    · cases h
    · exact hn (hb d hd)

/-- C113: `dna_left_recursive`: the same sequences, with trees nested to the left. -/
theorem C113_dna_left {input it} (ho : Opened gramDnaLeftRecursive (.nonterminal dna) input it) :
    (∀ c s, input = (c :: s).reverse → (∀ d ∈ input, IsBase d) → Collects it [⟨.nonterminal dna, dnaLeft c s⟩]) ∧
    ((input = [] ∨ ∃ d ∈ input, ¬ IsBase d) → Collects it []) := by
  constructor
  · rintro c s rfl hb
    refine collects_one gramDnaLeftRecursive_acyclic (by decide +kernel) ho _ fun t => ?_
    rw [isParse_iff]
    simp only [left_kids_iff]
    constructor
    · rintro ⟨_, rfl, ⟨c', s', _, rfl⟩, hy⟩
      rw [dnaLeft_yield] at hy
      cases List.reverse_injective hy; rfl
    · rintro rfl
      exact ⟨_, rfl, ⟨c, s, fun d hd => hb d (List.mem_reverse.mpr hd), rfl⟩, dnaLeft_yield c s⟩
  · intro h
    refine collects_none gramDnaLeftRecursive_acyclic (by decide +kernel) ho fun t ht => ?_
    obtain ⟨_, rfl, hk, hy⟩ := isParse_iff.mp ht
    obtain ⟨c', s', hb, rfl⟩ := left_kids_iff.mp hk
    rw [dnaLeft_yield] at hy
    subst hy
    rcases h with h | ⟨d, hd, hn⟩
    · simp at h
    · exact hn (hb d (List.mem_reverse.mp hd))

/-- "GATTACA", the input of the tests. -/
example : ∃ it, Opened gramDnaRightRecursive (.nonterminal dna) "GATTACA".toList it ∧
    Collects it [⟨.nonterminal dna, dnaRight 'G' "ATTACA".toList⟩] := by
  obtain ⟨it, ho⟩ := opened_of (g := gramDnaRightRecursive) (S := .nonterminal dna) (input := "GATTACA".toList) (by decide +kernel)
  exact ⟨it, ho, (C113_dna_right ho).1 'G' "ATTACA".toList (by decide +kernel) (by decide +kernel)⟩
example : ∃ it, Opened gramDnaLeftRecursive (.nonterminal dna) "GATTACA".toList it ∧
    Collects it [⟨.nonterminal dna, dnaLeft 'A' "CATTAG".toList⟩] := by
  obtain ⟨it, ho⟩ := opened_of (g := gramDnaLeftRecursive) (S := .nonterminal dna) (input := "GATTACA".toList) (by decide +kernel)
  exact ⟨it, ho, (C113_dna_left ho).1 'A' "CATTAG".toList (by decide +kernel) (by decide +kernel)⟩

/-- C113: `empty_right_recursive`: `n` letters have exactly one tree, with `n` levels below the root; no other text has one. -/
theorem C113_empty_right {input it} (ho : Opened gramEmptyRightRecursive (.nonterminal ['a']) input it) :
    (∀ n, input = List.replicate n 'a' → Collects it [⟨.nonterminal ['a'], lettersRight n⟩]) ∧ ((∃ c ∈ input, c ≠ 'a') → Collects it []) := by
  constructor
  · rintro n rfl
    refine collects_one gramEmptyRightRecursive_acyclic (by decide +kernel) ho _ fun t => ?_
    rw [isParse_iff]
    simp only [emptyRight_kids_iff]
    constructor
    · rintro ⟨_, rfl, ⟨m, rfl⟩, hy⟩
      rw [lettersRight_yield] at hy
      have := congrArg List.length hy
      simp at this; rw [this]
    · rintro rfl
      exact ⟨_, rfl, ⟨n, rfl⟩, lettersRight_yield n⟩
  · rintro ⟨c, hc, hne⟩
    refine collects_none gramEmptyRightRecursive_acyclic (by decide +kernel) ho fun t ht => ?_
    obtain ⟨_, rfl, hk, hy⟩ := isParse_iff.mp ht
    obtain ⟨m, rfl⟩ := emptyRight_kids_iff.mp hk
    rw [lettersRight_yield] at hy
    subst hy
    exact hne (List.eq_of_mem_replicate hc)

/-- C113: `empty_left_recursive`. -/
theorem C113_empty_left {input it} (ho : Opened gramEmptyLeftRecursive (.nonterminal ['a']) input it) :
    (∀ n, input = List.replicate n 'a' → Collects it [⟨.nonterminal ['a'], lettersLeft n⟩]) ∧ ((∃ c ∈ input, c ≠ 'a') → Collects it []) := by
  constructor
  · rintro n rfl
    refine collects_one gramEmptyLeftRecursive_acyclic (by decide +kernel) ho _ fun t => ?_
    rw [isParse_iff]
    simp only [emptyLeft_kids_iff]
    constructor
    · rintro ⟨_, rfl, ⟨m, rfl⟩, hy⟩
      rw [lettersLeft_yield] at hy
      have := congrArg List.length hy
      simp at this; rw [this]
    · rintro rfl
      exact ⟨_, rfl, ⟨n, rfl⟩, lettersLeft_yield n⟩
  · rintro ⟨c, hc, hne⟩
    refine collects_none gramEmptyLeftRecursive_acyclic (by decide +kernel) ho fun t ht => ?_
    obtain ⟨_, rfl, hk, hy⟩ := isParse_iff.mp ht
    obtain ⟨m, rfl⟩ := emptyLeft_kids_iff.mp hk
    rw [lettersLeft_yield] at hy
    subst hy
    exact hne (List.eq_of_mem_replicate hc)

/-- The ten letters of the tests, and a text with another letter. -/
example : (∃ it, Opened gramEmptyRightRecursive (.nonterminal ['a']) (List.replicate 10 'a') it) ∧
    ∃ it, Opened gramEmptyLeftRecursive (.nonterminal ['a']) ['a', 'b'] it :=
  ⟨opened_of (by decide +kernel), opened_of (by decide +kernel)⟩

/-- Trees returned one after the other, when each comes after the one before and none comes twice. -/
theorem draws_sequence {g S input it ts it'} (f : Nat → ParseTree) (hf : Function.Injective f) (hnd : (g.productions.flatMap fun p => p.rhs.map fun e => (p.lhs, e)).Nodup)
    (ho : Opened g S input it) (h : ∀ t, IsParse g S input t → ∃ n, t = f n)
    (hlt : ∀ pre n post it', Spec.Draws it (pre ++ f (n + 1) :: post) it' → f n ∈ pre) (hd : Spec.Draws it ts it') :
    ts = (List.range ts.length).map f := by
  have key : ∀ (k : Nat) pre t post, pre.length = k → ts = pre ++ t :: post → t = f k := by
    intro k
    induction k using Nat.strongRecOn with
    | ind k ih =>
      intro pre t post hk he
      have hpre : ∀ i, (hi : i < pre.length) → pre[i] = f i := by
        intro i hi
        exact ih i (by omega) (pre.take i) pre[i] (pre.drop (i + 1) ++ t :: post) (by simp; omega)
          (by rw [he]; have e := List.take_append_drop i pre
              rw [List.drop_eq_getElem_cons hi] at e; rw [← List.cons_append, ← List.append_assoc, e])
      obtain ⟨n, hn⟩ := h t (C01_soundness ho hd t (by simp [he]))
      have hnodup := C04_no_duplicates hnd ho hd
      rw [he, List.nodup_append] at hnodup
      rcases Nat.lt_trichotomy n k with hlt' | rfl | hgt
      · have := hnodup.2.2 (pre[n]'(by omega)) (List.getElem_mem _) t (by simp)
        rw [hpre n (by omega)] at this
        exact absurd hn.symm this
      · exact hn
      · obtain ⟨m, rfl⟩ : ∃ m, n = m + 1 := ⟨n - 1, by omega⟩
        rw [he, hn] at hd
        have := hlt pre m post it' hd
        obtain ⟨i, hi, hi'⟩ := List.getElem_of_mem this
        rw [hpre i hi] at hi'
        have := hf hi'
        omega
  apply List.ext_getElem (by simp)
  intro i h1 h2
  rw [List.getElem_map, List.getElem_range]
  exact key i (ts.take i) ts[i] (ts.drop (i + 1)) (by simp; omega) (by simp)

theorem draws_many {g S input it} (ho : Opened g S input it) (hinf : {t | IsParse g S input t}.Infinite) :
    ∀ n, ∃ ts it', ts.length = n ∧ Spec.Draws it ts it' := by
  intro n
  induction n with
  | zero => exact ⟨[], it, rfl, .nil⟩
  | succ n ih =>
    obtain ⟨ts, it', h1, h2⟩ := ih
    obtain ⟨t, it'', h3⟩ := C54_infinitely_many ho hinf h2
    exact ⟨ts ++ [t], it'', by simp [h1], h2.append (.cons h3 .nil)⟩

/-! ## Endlessly many trees -/

theorem nested_cyclic : Cyclic gramRecursiveNestedInfinite ['a'] :=
  .tail (.single (show UnitStep _ ['a'] ['b'] from ⟨⟨[.nonterminal ['b']]⟩, [], [], ⟨_, List.mem_cons_self, rfl, by simp⟩, rfl, ⟨[], .nil, rfl⟩, [], .nil, rfl⟩))
    ⟨⟨[.nonterminal ['a']]⟩, [], [], ⟨_, List.mem_cons_of_mem _ List.mem_cons_self, rfl, by simp⟩, rfl, ⟨[], .nil, rfl⟩, [], .nil, rfl⟩

theorem noop_cyclic : Cyclic gramEmptyNoopInfinite ['a'] :=
  .tail (.single (show UnitStep _ ['a'] ['b'] from ⟨⟨[.nonterminal ['b']]⟩, [], [], ⟨_, List.mem_cons_self, rfl, by simp⟩, rfl, ⟨[], .nil, rfl⟩, [], .nil, rfl⟩))
    ⟨⟨[.nonterminal ['a']]⟩, [], [], ⟨_, List.mem_cons_of_mem _ List.mem_cons_self, rfl, by simp⟩, rfl, ⟨[], .nil, rfl⟩, [], .nil, rfl⟩

/-- The tree with `n` detours. -/
def detourTree (leaf : Str) (n : Nat) : ParseTree := ⟨.nonterminal ['a'], detours leaf n⟩

theorem detourTree_inj (leaf : Str) : Function.Injective (detourTree leaf) := by
  intro n m h
  simp only [detourTree, ParseTree.mk.injEq, true_and] at h
  exact detours_inj h

theorem nested_parse {input t} : IsParse gramRecursiveNestedInfinite (.nonterminal ['a']) input t ↔ input = ['z'] ∧ ∃ n, t = detourTree ['z'] n := by
  rw [isParse_iff]
  simp only [nested_kids_iff]
  constructor
  · rintro ⟨_, rfl, ⟨n, rfl⟩, rfl⟩
    exact ⟨detours_yield _ _, n, rfl⟩
  · rintro ⟨rfl, n, rfl⟩
    exact ⟨_, rfl, ⟨n, rfl⟩, detours_yield _ _⟩

theorem noop_parse {input t} : IsParse gramEmptyNoopInfinite (.nonterminal ['a']) input t ↔ input = [] ∧ ∃ n, t = detourTree [] n := by
  rw [isParse_iff]
  simp only [noop_kids_iff]
  constructor
  · rintro ⟨_, rfl, ⟨n, rfl⟩, rfl⟩
    exact ⟨detours_yield _ _, n, rfl⟩
  · rintro ⟨rfl, n, rfl⟩
    exact ⟨_, rfl, ⟨n, rfl⟩, detours_yield _ _⟩

theorem detours_in_order {g it leaf} (ho : Opened g (.nonterminal ['a']) leaf it) (pre : List ParseTree) (n : Nat) (post : List ParseTree)
    (it' : ParseTreeIter) (hd : Spec.Draws it (pre ++ detourTree leaf (n + 1) :: post) it') : detourTree leaf n ∈ pre :=
  C74_shorter_first (kk := detours leaf (n + 1)) (kk' := detours leaf n) (l := .nonterminal ['a']) ho hd (.inside .here)
    (by rw [detours_yield, detours_yield]) .here

/-- C113: `recursive_nested_infinite`: for "z" the trees with 0, 1, 2, … detours are returned in this order, without end; when more follows
after "z", the first call of `next()` never returns; for all other inputs it returns `None`. -/
theorem C113_nested_infinite {input it} (ho : Opened gramRecursiveNestedInfinite (.nonterminal ['a']) input it) :
    (input = ['z'] → ∀ n, ∃ it', Spec.Draws it ((List.range n).map (detourTree ['z'])) it') ∧
    (∀ c r, input = 'z' :: c :: r → Diverges it) ∧ ((∀ r, input ≠ 'z' :: r) → Collects it []) := by
  have hnd : (gramRecursiveNestedInfinite.productions.flatMap fun p => p.rhs.map fun e => (p.lhs, e)).Nodup := by decide +kernel
  refine ⟨?_, ?_, ?_⟩
  · rintro rfl n
    have hinf : {t | IsParse gramRecursiveNestedInfinite (.nonterminal ['a']) ['z'] t}.Infinite :=
      (Set.infinite_range_of_injective (detourTree_inj ['z'])).mono (by rintro _ ⟨k, rfl⟩; exact nested_parse.mpr ⟨rfl, k, rfl⟩)
    obtain ⟨ts, it', h1, h2⟩ := draws_many ho hinf n
    have := draws_sequence (detourTree ['z']) (detourTree_inj _) hnd ho (fun t ht => (nested_parse.mp ht).2) (detours_in_order ho) h2
    rw [h1] at this
    exact ⟨it', this ▸ h2⟩
  · rintro c r rfl
    refine (C54_call_outcome ho .nil hnd).2.2.mpr ⟨fun t ht => ?_, ?_⟩
    · have := (nested_parse.mp ht).1
      simp at this
    · exact ⟨[], ['a'], ['z'], c :: r, .start, nested_cyclic, ⟨_, nested_parse.mpr ⟨rfl, 0, rfl⟩⟩, rfl⟩
  · intro hz
    suffices hnt : ∃ it2, Next it none it2 from let ⟨it2, h⟩ := hnt; ⟨it, it2, .nil, h⟩
    refine (C54_call_outcome ho .nil hnd).2.1.mpr ⟨fun t ht => absurd (nested_parse.mp ht).1 (hz []), ?_⟩
    · rintro ⟨u, n, v, r, he, hc, ⟨t, ht⟩, hi⟩
      have halt : ∀ {l e}, HasAlt gramRecursiveNestedInfinite l e → (∃ m, e = ⟨[.nonterminal m]⟩) ∨ e = ⟨[.terminal ['z']]⟩ := by
        rintro l e ⟨p, hp, rfl, he⟩
        simp only [gramRecursiveNestedInfinite, rulesRecursiveNestedInfinite, List.mem_cons, List.not_mem_nil, or_false] at hp
        rcases hp with rfl | rfl
        · simp only [List.mem_cons, List.not_mem_nil, or_false] at he
          rcases he with rfl | rfl
          · exact .inl ⟨_, rfl⟩
          · exact .inr rfl
        · simp only [List.mem_cons, List.not_mem_nil, or_false] at he
          exact .inl ⟨_, he⟩
      have hu : ∀ {u T}, Expected gramRecursiveNestedInfinite (.nonterminal ['a']) input u T → u = [] := by
        intro u T h
        induction h with
        | start => rfl
        | @step u l e pre n post ns r _ ha hts hf _ ih =>
          have hpre : pre = [] := by
            rcases halt ha with ⟨m, rfl⟩ | rfl
            · cases pre with
              | nil => rfl
              | cons x pre => simp at hts
            · cases pre with
              | nil => rfl
              | cons x pre => simp at hts
          subst hpre
          cases hf
          simp [ih, yield]
      have hv : v = ['z'] := by
        obtain ⟨kids, _, hk, rfl⟩ := isParse_iff.mp ht
        have ha : KidsOf gramRecursiveNestedInfinite ['a'] kids → yield kids = ['z'] := by
          intro h
          obtain ⟨m, rfl⟩ := nested_kids_iff.mp h
          exact detours_yield _ _
        have hn : n = ['a'] ∨ n = ['b'] := by
          obtain ⟨e, ⟨p, hp, hl, _⟩, _⟩ := hk
          simp only [gramRecursiveNestedInfinite, rulesRecursiveNestedInfinite, List.mem_cons, List.not_mem_nil, or_false] at hp
          rcases hp with rfl | rfl
          · exact .inl (by simpa using hl.symm)
          · exact .inr (by simpa using hl.symm)
        rcases hn with rfl | rfl
        · exact ha hk
        · obtain ⟨a, rfl, h⟩ := nested_b.mp hk
          obtain ⟨m, rfl⟩ := nested_kids_iff.mp h
          simp [yield, nodeYield, detours_yield]
      rw [hu he, hv] at hi
      exact hz r (by simpa using hi)

/-- C113: `empty_noop_infinite` and the benchmark `parse_infinite_nullable_grammar`: for the empty text the trees with 0, 1, 2, … detours are
returned in this order, without end; for any other text the first call of `next()` never returns. -/
theorem C113_noop_infinite {input it} (ho : Opened gramEmptyNoopInfinite (.nonterminal ['a']) input it) :
    (input = [] → ∀ n, ∃ it', Spec.Draws it ((List.range n).map (detourTree [])) it') ∧ (input ≠ [] → Diverges it) := by
  have hnd : (gramEmptyNoopInfinite.productions.flatMap fun p => p.rhs.map fun e => (p.lhs, e)).Nodup := by decide +kernel
  refine ⟨?_, ?_⟩
  · rintro rfl n
    have hinf : {t | IsParse gramEmptyNoopInfinite (.nonterminal ['a']) [] t}.Infinite :=
      (Set.infinite_range_of_injective (detourTree_inj [])).mono (by rintro _ ⟨k, rfl⟩; exact noop_parse.mpr ⟨rfl, k, rfl⟩)
    obtain ⟨ts, it', h1, h2⟩ := draws_many ho hinf n
    have := draws_sequence (detourTree []) (detourTree_inj _) hnd ho (fun t ht => (noop_parse.mp ht).2) (detours_in_order ho) h2
    rw [h1] at this
    exact ⟨it', this ▸ h2⟩
  · intro hne
    refine (C54_call_outcome ho .nil hnd).2.2.mpr ⟨fun t ht => absurd (noop_parse.mp ht).1 hne, ?_⟩
    exact ⟨[], ['a'], [], input, .start, noop_cyclic, ⟨_, noop_parse.mpr ⟨rfl, 0, rfl⟩⟩, rfl⟩

theorem firstNested_yield {ts ns} (h : IsForest gramEmptyFirstNested ts ns) : (∀ T ∈ ts, ∀ u, T = .terminal u → u = []) → yield ns = [] := by
  induction h with
  | nil => intro _; rfl
  | terminal _ ih =>
    intro hu
    simp [yield, nodeYield, hu _ List.mem_cons_self _ rfl, ih fun T hT => hu T (List.mem_cons_of_mem _ hT)]
  | nonterminal ha _ _ ih1 ih2 =>
    intro hu
    have : yield _ = [] := ih1 (by
      obtain ⟨p, hp, _, he⟩ := ha
      simp only [gramEmptyFirstNested, rulesEmptyFirstNested, List.mem_cons, List.not_mem_nil, or_false] at hp
      rcases hp with rfl | rfl | rfl
      · simp only [List.mem_cons, List.not_mem_nil, or_false] at he
        rcases he with rfl | rfl <;> simp
      · simp only [List.mem_cons, List.not_mem_nil, or_false] at he
        subst he; simp
      · simp only [List.mem_cons, List.not_mem_nil, or_false] at he
        subst he; simp)
    simp [yield, nodeYield, this, ih2 fun T hT => hu T (List.mem_cons_of_mem _ hT)]

/-- C113: `empty_first_nested`: for the empty text as many trees as wanted can be drawn; for any other text the first call never returns. -/
theorem C113_first_nested {input it} (ho : Opened gramEmptyFirstNested (.nonterminal ['a']) input it) :
    (input = [] → ∀ n, ∃ ts it', ts.length = n ∧ Spec.Draws it ts it') ∧ (input ≠ [] → Diverges it) := by
  have hnd : (gramEmptyFirstNested.productions.flatMap fun p => p.rhs.map fun e => (p.lhs, e)).Nodup := by decide +kernel
  have ha0 : IsParse gramEmptyFirstNested (.nonterminal ['a']) [] ⟨.nonterminal ['a'], [.terminal []]⟩ :=
    ⟨rfl, ⟨⟨[.terminal []]⟩, ⟨_, List.mem_cons_self, rfl, by simp⟩, .terminal .nil⟩, rfl⟩
  have fa : IsForest gramEmptyFirstNested [.nonterminal ['a']] [nd ['a'] [.terminal []]] :=
    .nonterminal ⟨_, List.mem_cons_self, rfl, List.mem_cons_self⟩ (.terminal .nil) .nil
  have hcyc : Cyclic gramEmptyFirstNested ['a'] := by
    have fc : IsForest gramEmptyFirstNested [.nonterminal ['c']] [nd ['c'] [nd ['a'] [.terminal []]]] :=
      .nonterminal ⟨_, List.mem_cons_of_mem _ (List.mem_cons_of_mem _ List.mem_cons_self), rfl, List.mem_cons_self⟩ fa .nil
    have s1 : UnitStep gramEmptyFirstNested ['a'] ['b'] :=
      ⟨⟨[.terminal [], .nonterminal ['b'], .nonterminal ['c']]⟩, [.terminal []], [.nonterminal ['c']], ⟨_, List.mem_cons_self, rfl, by simp⟩, rfl,
        ⟨_, .terminal .nil, rfl⟩, _, fc, rfl⟩
    have s2 : UnitStep gramEmptyFirstNested ['b'] ['c'] :=
      ⟨⟨[.nonterminal ['c']]⟩, [], [], ⟨_, List.mem_cons_of_mem _ List.mem_cons_self, rfl, by simp⟩, rfl, ⟨[], .nil, rfl⟩, [], .nil, rfl⟩
    have s3 : UnitStep gramEmptyFirstNested ['c'] ['a'] :=
      ⟨⟨[.nonterminal ['a']]⟩, [], [], ⟨_, List.mem_cons_of_mem _ (List.mem_cons_of_mem _ List.mem_cons_self), rfl, by simp⟩, rfl,
        ⟨[], .nil, rfl⟩, [], .nil, rfl⟩
    exact .tail (.tail (.single s1) s2) s3
  constructor
  · rintro rfl n
    refine draws_many ho ?_ n
    have := cyclic_infinite hcyc ⟨_, ha0⟩
    refine (this.image (f := fun k => (⟨.nonterminal ['a'], k⟩ : ParseTree)) fun a _ b _ h => by simpa using h).mono ?_
    rintro _ ⟨k, ⟨e, h1, h2, h3⟩, rfl⟩
    exact ⟨rfl, ⟨e, h1, h2⟩, h3⟩
  · intro hne
    refine (C54_call_outcome ho .nil hnd).2.2.mpr ⟨fun t ht => ?_, ?_⟩
    · obtain ⟨kids, rfl, ⟨e, h1, h2⟩, hy⟩ := isParse_iff.mp ht
      have := firstNested_yield (.nonterminal h1 h2 .nil) (by simp)
      simp [yield, nodeYield] at this
      exact absurd (hy.symm.trans this) hne
    · exact ⟨[], ['a'], [], input, .start, hcyc, ⟨_, ha0⟩, rfl⟩

/-- Iterators of the three kinds, on inputs of all the cases. -/
example (input : Str) : (∃ it, Opened gramRecursiveNestedInfinite (.nonterminal ['a']) input it) ∧
    (∃ it, Opened gramEmptyNoopInfinite (.nonterminal ['a']) input it) ∧ ∃ it, Opened gramEmptyFirstNested (.nonterminal ['a']) input it :=
  ⟨opened_of (by decide +kernel), opened_of (by decide +kernel), opened_of (by decide +kernel)⟩

/-! ## Ambiguity -/

/-- C113: `branching_and_overlapping_parse_trees`: `n + 1` words "AND" have as many trees as the Fibonacci number `n + 1`, pairwise different;
no other text has a tree. -/
theorem C113_branching {input it} (ho : Opened gramBranchingAndOverlappingParseTrees (.nonterminal and') input it) :
    (∀ n, input = ands n → ∃ ts, Collects it ts ∧ ts.Nodup ∧ ts.length = Nat.fib (n + 1)) ∧ ((∀ n, input ≠ ands n) → Collects it []) := by
  have hnd : (gramBranchingAndOverlappingParseTrees.productions.flatMap fun p => p.rhs.map fun e => (p.lhs, e)).Nodup := by decide +kernel
  constructor
  · rintro n rfl
    have hL : ((andKids n).map fun k => (⟨.nonterminal and', k⟩ : ParseTree)).Nodup := (andKids_nodup n).map fun a b h => by simpa using h
    obtain ⟨ts, h1, h2⟩ := collects_perm gramBranchingAndOverlappingParseTrees_acyclic hnd ho _ hL fun t => by
      rw [isParse_iff, List.mem_map]
      constructor
      · rintro ⟨k, hk, rfl⟩
        exact ⟨k, rfl, and_kids_iff.mpr hk⟩
      · rintro ⟨k, rfl, hk⟩
        exact ⟨k, and_kids_iff.mp hk, rfl⟩
    exact ⟨ts, h1, h2.nodup_iff.mpr hL, by rw [h2.length_eq, List.length_map, andKids_length]⟩
  · intro h
    refine collects_none gramBranchingAndOverlappingParseTrees_acyclic hnd ho fun t ht => ?_
    obtain ⟨kids, rfl, hk, hy⟩ := isParse_iff.mp ht
    obtain ⟨n, hn⟩ := and_kids _ kids le_rfl hk
    exact h n (hy.symm.trans (andKids_kids n kids hn).2)

/-- The five words of the test: five trees. -/
example : ands 4 = "AND AND AND AND AND".toList ∧ Nat.fib (4 + 1) = 5 := by decide +kernel
example (n : Nat) : ∃ it, Opened gramBranchingAndOverlappingParseTrees (.nonterminal and') (ands n) it := opened_of (by decide +kernel)

/-- C113: `ambiguous`: "END" has two trees, in the order of the alternatives; nothing else has one. -/
theorem C113_ambiguous {input it} (ho : Opened gramAmbiguous (.nonterminal start) input it) :
    Collects it (if input = ['E', 'N', 'D'] then [⟨.nonterminal start, [nd ['a'] [.terminal ['E', 'N', 'D']]]⟩,
      ⟨.nonterminal start, [nd ['b'] [.terminal ['E', 'N', 'D']]]⟩] else []) := by
  split
  · rename_i h
    subst h
    have h' : ∃ it, Opened gramAmbiguous (.nonterminal start) ['E', 'N', 'D'] it ∧ Collects it [⟨.nonterminal start, [nd ['a'] [.terminal ['E', 'N', 'D']]]⟩,
        ⟨.nonterminal start, [nd ['b'] [.terminal ['E', 'N', 'D']]]⟩] :=
      ⟨_, .deprecatedStarting rfl, _, _, .cons ⟨100, rfl⟩ (.cons ⟨100, rfl⟩ .nil), 100, rfl⟩
    obtain ⟨it', ho', hc⟩ := h'
    exact collects_same ho' ho hc
  · rename_i h
    refine collects_none gramAmbiguous_acyclic (by decide +kernel) ho fun t ht => ?_
    obtain ⟨kids, rfl, hk, rfl⟩ := isParse_iff.mp ht
    rcases ambiguous_start.mp hk with rfl | rfl <;> exact h rfl

/-- C113: `empty_ambiguous`. -/
theorem C113_empty_ambiguous {input it} (ho : Opened gramEmptyAmbiguous (.nonterminal start) input it) :
    Collects it (if input = [] then [⟨.nonterminal start, [nd ['a'] [.terminal []]]⟩, ⟨.nonterminal start, [nd ['b'] [.terminal []]]⟩] else []) := by
  split
  · rename_i h
    subst h
    have h' : ∃ it, Opened gramEmptyAmbiguous (.nonterminal start) [] it ∧ Collects it [⟨.nonterminal start, [nd ['a'] [.terminal []]]⟩,
        ⟨.nonterminal start, [nd ['b'] [.terminal []]]⟩] :=
      ⟨_, .deprecatedStarting rfl, _, _, .cons ⟨100, rfl⟩ (.cons ⟨100, rfl⟩ .nil), 100, rfl⟩
    obtain ⟨it', ho', hc⟩ := h'
    exact collects_same ho' ho hc
  · rename_i h
    refine collects_none gramEmptyAmbiguous_acyclic (by decide +kernel) ho fun t ht => ?_
    obtain ⟨kids, rfl, hk, rfl⟩ := isParse_iff.mp ht
    rcases emptyAmbiguous_start.mp hk with rfl | rfl <;> exact h rfl

/-! ## One text -/

theorem collects_only {g : Grammar} {n : Str} {k : List ParseTreeNode} (hac : Acyclic g)
    (hnd : (g.productions.flatMap fun p => p.rhs.map fun e => (p.lhs, e)).Nodup) (h : ∀ kids, KidsOf g n kids ↔ kids = k) {input it}
    (ho : Opened g (.nonterminal n) input it) : Collects it (if input = yield k then [⟨.nonterminal n, k⟩] else []) := by
  split
  · rename_i hi
    exact collects_one hac hnd ho _ fun t => by rw [parse_only h]; simp [hi]
  · rename_i hi
    exact collects_none hac hnd ho fun t => by rw [parse_only h]; simp [hi]

/-- C113: `complete_empty`, `empty`, `nested_empty_post`, `nested_empty_pre`, `nested_empty_pre_and_post`, `empty_inline`: the text of the test
has one tree, no other text has one. -/
theorem C113_one_text {input it} :
    (Opened gramCompleteEmpty (.nonterminal start) input it →
      Collects it (if input = ['h', 'i'] then [⟨.nonterminal start, [.terminal ['h', 'i'], nothing]⟩] else [])) ∧
    (Opened gramEmpty (.nonterminal start) input it → Collects it (if input = [] then [⟨.nonterminal start, [.terminal []]⟩] else [])) ∧
    (Opened gramNestedEmptyPost (.nonterminal start) input it →
      Collects it (if input = ['a'] then [⟨.nonterminal start, [nd ['a'] [.terminal ['a'], nothing], nothing]⟩] else [])) ∧
    (Opened gramNestedEmptyPre (.nonterminal start) input it →
      Collects it (if input = ['a'] then [⟨.nonterminal start, [nothing, nd ['a'] [nothing, .terminal ['a']]]⟩] else [])) ∧
    (Opened gramNestedEmptyPreAndPost (.nonterminal start) input it →
      Collects it (if input = ['a'] then [⟨.nonterminal start, [nothing, nd ['a'] [nothing, .terminal ['a'], nothing], nothing]⟩] else [])) ∧
    (Opened gramEmptyInline (.nonterminal start) input it →
      Collects it (if input = ['a', 'a'] then [⟨.nonterminal start, [nd ['a'] [.terminal ['a']], .terminal [], nd ['a'] [.terminal ['a']]]⟩] else [])) :=
  ⟨fun ho => collects_only gramCompleteEmpty_acyclic (by decide +kernel) (fun _ => completeEmpty_start) ho,
    fun ho => collects_only gramEmpty_acyclic (by decide +kernel) (fun _ => empty_start) ho,
    fun ho => collects_only gramNestedEmptyPost_acyclic (by decide +kernel) (fun _ => post_start) ho,
    fun ho => collects_only gramNestedEmptyPre_acyclic (by decide +kernel) (fun _ => pre_start) ho,
    fun ho => collects_only gramNestedEmptyPreAndPost_acyclic (by decide +kernel) (fun _ => prePost_start) ho,
    fun ho => collects_only gramEmptyInline_acyclic (by decide +kernel) (fun _ => inline_start) ho⟩

/-- C113: `shared_nonterminal_failure`: "a" has the one long tree, "anever" the short one, and no other text has a tree. -/
theorem C113_shared {input it} (ho : Opened gramSharedNonterminalFailure (.nonterminal start) input it) :
    Collects it (if input = ['a'] then [⟨.nonterminal start, [nd longsuccess [nd long2 [nd long3 [nd long4 [nd char' [.terminal ['a']]]]]]]⟩]
      else if input = 'a' :: never then [⟨.nonterminal start, [nd shortfail [nd char' [.terminal ['a']], .terminal never]]⟩] else []) := by
  have h : ∀ t, IsParse gramSharedNonterminalFailure (.nonterminal start) input t ↔
      (t = ⟨.nonterminal start, [nd shortfail [nd char' [.terminal ['a']], .terminal never]]⟩ ∧ input = 'a' :: never) ∨
      (t = ⟨.nonterminal start, [nd longsuccess [nd long2 [nd long3 [nd long4 [nd char' [.terminal ['a']]]]]]]⟩ ∧ input = ['a']) := by
    intro t
    rw [isParse_iff]
    simp only [shared_start]
    constructor
    · rintro ⟨_, rfl, rfl | rfl, rfl⟩
      · exact .inl ⟨rfl, rfl⟩
      · exact .inr ⟨rfl, rfl⟩
    · rintro (⟨rfl, rfl⟩ | ⟨rfl, rfl⟩)
      · exact ⟨_, rfl, .inl rfl, rfl⟩
      · exact ⟨_, rfl, .inr rfl, rfl⟩
  split
  · rename_i hi
    exact collects_one gramSharedNonterminalFailure_acyclic (by decide +kernel) ho _ fun t => by rw [h]; simp [hi]
  · rename_i hi
    split
    · rename_i hi'
      exact collects_one gramSharedNonterminalFailure_acyclic (by decide +kernel) ho _ fun t => by rw [h]; simp [hi']
    · rename_i hi'
      exact collects_none gramSharedNonterminalFailure_acyclic (by decide +kernel) ho fun t => by rw [h]; simp [hi, hi']

/-! ## Arithmetic -/

/-- C113: `math`: every text has at most one tree, and collecting always ends. -/
theorem C113_math {input it} (ho : Opened gramMath (.nonterminal Math.sum) input it) :
    ∃ ts, Collects it ts ∧ ts.length ≤ 1 ∧ (ts ≠ [] ↔ Derives gramMath (.nonterminal Math.sum) input) := by
  obtain ⟨ts, it1, it2, hd, hn⟩ := C06_terminates_acyclic gramMath_acyclic ho
  have hm := C05_exhausted_exact ho hd hn
  have hnodup := C04_no_duplicates (by decide +kernel) ho hd
  refine ⟨ts, ⟨it1, it2, hd, hn⟩, ?_, ?_⟩
  · match ts, hm, hnodup with
    | [], _, _ => simp
    | [_], _, _ => simp
    | a :: b :: ts, hm, hnodup =>
      obtain ⟨k, rfl, h1, h2⟩ := isParse_iff.mp ((hm a).mp (by simp))
      obtain ⟨k', rfl, h1', h2'⟩ := isParse_iff.mp ((hm b).mp (by simp))
      have := Math.sum_unique h1 h1' (h2.trans h2'.symm)
      simp [this] at hnodup
  · constructor
    · intro hne
      obtain ⟨t, ht⟩ := List.exists_mem_of_ne_nil ts hne
      exact ⟨t, (hm t).mp ht⟩
    · rintro ⟨t, ht⟩ rfl
      exact absurd ((hm t).mpr ht) (by simp)

set_option maxRecDepth 100000 in
/-- The text of the test is in the language. -/
example : ∃ it t it', Opened gramMath (.nonterminal Math.sum) (chars! "1+(2*3-4)") it ∧ Next it (some t) it' :=
  ⟨_, _, _, .deprecatedStarting rfl, 2000, by rfl⟩

def rulesPolish : List Production := [
  ⟨.nonterminal nProduct, [⟨[.nonterminal nNumber]⟩, ⟨[.nonterminal nOp, .nonterminal nProduct, .nonterminal nProduct]⟩]⟩,
  ⟨.nonterminal nOp, [⟨[.terminal ['+']]⟩, ⟨[.terminal ['-']]⟩, ⟨[.terminal ['*']]⟩, ⟨[.terminal ['/']]⟩]⟩,
  ⟨.nonterminal nNumber, [⟨[.terminal ['0']]⟩, ⟨[.terminal ['1']]⟩, ⟨[.terminal ['2']]⟩, ⟨[.terminal ['3']]⟩, ⟨[.terminal ['4']]⟩,
    ⟨[.terminal ['5']]⟩, ⟨[.terminal ['6']]⟩, ⟨[.terminal ['7']]⟩, ⟨[.terminal ['8']]⟩, ⟨[.terminal ['9']]⟩]⟩]

theorem polish_number {kids} : KidsOf gPolishBench nNumber kids ↔ ∃ c, Math.IsDigit c ∧ kids = [.terminal [c]] := by
  kids_simp rulesPolish
  simp only [Math.IsDigit, List.mem_cons, List.not_mem_nil, or_false]
  constructor
  · rintro (h | h | h | h | h | h | h | h | h | h) <;> exact ⟨_, by simp, h⟩
  · rintro ⟨c, rfl | rfl | rfl | rfl | rfl | rfl | rfl | rfl | rfl | rfl, h⟩ <;> simp [h]

theorem polish_op {kids} : KidsOf gPolishBench nOp kids ↔ ∃ c, (c = '+' ∨ c = '-' ∨ c = '*' ∨ c = '/') ∧ kids = [.terminal [c]] := by
  kids_simp rulesPolish

theorem polish_product {kids} : KidsOf gPolishBench nProduct kids ↔ (∃ n, kids = [nd nNumber n] ∧ KidsOf gPolishBench nNumber n) ∨
    ∃ o p q, kids = [nd nOp o, nd nProduct p, nd nProduct q] ∧ KidsOf gPolishBench nOp o ∧ KidsOf gPolishBench nProduct p ∧
      KidsOf gPolishBench nProduct q := by
  kids_simp rulesPolish

/-- No expression in prefix notation is the beginning of another. -/
theorem polish_prefix : ∀ (n : Nat) (k k' : List ParseTreeNode) (r r' : Str), sizeOf k ≤ n → KidsOf gPolishBench nProduct k →
    KidsOf gPolishBench nProduct k' → yield k ++ r = yield k' ++ r' → k = k' ∧ r = r'
  | 0, k, _, _, _, hk => by cases k <;> simp at hk
  | n + 1, k, k', r, r', hk => by
    intro h h' he
    rcases polish_product.mp h with ⟨d, rfl, hd⟩ | ⟨o, p, q, rfl, ho, hp, hq⟩ <;>
      rcases polish_product.mp h' with ⟨d', rfl, hd'⟩ | ⟨o', p', q', rfl, ho', hp', hq'⟩
    · obtain ⟨c, hc, rfl⟩ := polish_number.mp hd
      obtain ⟨c', hc', rfl⟩ := polish_number.mp hd'
      simp [yield, nodeYield] at he
      obtain ⟨rfl, rfl⟩ := he
      exact ⟨rfl, rfl⟩
    · obtain ⟨c, hc, rfl⟩ := polish_number.mp hd
      obtain ⟨c', hc', rfl⟩ := polish_op.mp ho'
      simp [yield, nodeYield] at he
      obtain ⟨rfl, _⟩ := he
      rcases hc' with rfl | rfl | rfl | rfl <;> exact absurd hc (by decide)
    · obtain ⟨c, hc, rfl⟩ := polish_op.mp ho
      obtain ⟨c', hc', rfl⟩ := polish_number.mp hd'
      simp [yield, nodeYield] at he
      obtain ⟨rfl, _⟩ := he
      rcases hc with rfl | rfl | rfl | rfl <;> exact absurd hc' (by decide)
    · obtain ⟨c, hc, rfl⟩ := polish_op.mp ho
      obtain ⟨c', hc', rfl⟩ := polish_op.mp ho'
      simp at hk
      simp only [yield, nodeYield, List.append_nil, List.cons_append, List.nil_append, List.append_assoc, List.cons.injEq] at he
      obtain ⟨rfl, he⟩ := he
      obtain ⟨rfl, he'⟩ := polish_prefix n p p' _ _ (by omega) hp hp' he
      obtain ⟨rfl, rfl⟩ := polish_prefix n q q' _ _ (by omega) hq hq' he'
      exact ⟨rfl, rfl⟩

/-- C113: the benchmark `parse_polish_calculator`: every text has at most one tree, and collecting always ends. -/
theorem C113_polish {input it} (ho : Opened gPolishBench (.nonterminal nProduct) input it) :
    ∃ ts, Collects it ts ∧ ts.length ≤ 1 ∧ (ts ≠ [] ↔ Derives gPolishBench (.nonterminal nProduct) input) := by
  obtain ⟨ts, it1, it2, hd, hn⟩ := C06_terminates_acyclic
    (acyclic_of_check [] [nProduct, nOp, nNumber] (by decide +kernel) (by decide +kernel) : Acyclic gPolishBench) ho
  have hm := C05_exhausted_exact ho hd hn
  have hnodup := C04_no_duplicates (by decide +kernel) ho hd
  refine ⟨ts, ⟨it1, it2, hd, hn⟩, ?_, ?_⟩
  · match ts, hm, hnodup with
    | [], _, _ => simp
    | [_], _, _ => simp
    | a :: b :: ts, hm, hnodup =>
      obtain ⟨k, rfl, h1, h2⟩ := isParse_iff.mp ((hm a).mp (by simp))
      obtain ⟨k', rfl, h1', h2'⟩ := isParse_iff.mp ((hm b).mp (by simp))
      have := (polish_prefix _ k k' [] [] le_rfl h1 h1' (by rw [h2, h2'])).1
      simp [this] at hnodup
  · constructor
    · intro hne
      obtain ⟨t, ht⟩ := List.exists_mem_of_ne_nil ts hne
      exact ⟨t, (hm t).mp ht⟩
    · rintro ⟨t, ht⟩ rfl
      exact absurd ((hm t).mpr ht) (by simp)

set_option maxRecDepth 100000 in
/-- An expression in prefix notation. -/
example : ∃ it t it', Opened gPolishBench (.nonterminal nProduct) ['+', '1', '*', '2', '3'] it ∧ Next it (some t) it' :=
  ⟨_, _, _, .deprecatedStarting rfl, 500, by rfl⟩

end Bnf.Props
