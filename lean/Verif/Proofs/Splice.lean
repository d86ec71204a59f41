import Verif.Spec.Splice
import Verif.Proofs.Ebnf

/-! # Trees of normalized grammars without the nodes of generated names -/

set_option autoImplicit false

namespace Bnf
open Spec

variable {pg : ParsedGrammar} {g : Grammar} {D : Str → List Expression → Prop}

theorem splice_append (names : List Str) (ns ms : List ParseTreeNode) : splice names (ns ++ ms) = splice names ns ++ splice names ms := by
  induction ns with
  | nil => rfl
  | cons n ns ih => simp [splice, ih]

mutual
theorem yield_spliceNode (names : List Str) : (n : ParseTreeNode) → yield (spliceNode names n) = nodeYield n
  | .terminal u => by simp [spliceNode, yield, nodeYield]
  | .nonterminal (.terminal u) kids => by simp [spliceNode, yield, nodeYield, yield_splice names kids]
  | .nonterminal (.nonterminal n) kids => by
    simp only [spliceNode]
    split <;> simp [yield, nodeYield, yield_splice names kids]
theorem yield_splice (names : List Str) : (ns : List ParseTreeNode) → yield (splice names ns) = yield ns
  | [] => rfl
  | n :: ns => by simp [splice, yield, yield_append', yield_spliceNode names n, yield_splice names ns]
end

theorem mem_names {pg : ParsedGrammar} {n : Str} : n ∈ pg.map (·.lhs) ↔ DeclaredIn n pg := by simp [DeclaredIn]

/-- From a derivation to a tree of the text. -/
theorem spans_of_forest (hn : Normal pg g D) (hyg : ∀ n, UsedIn n pg → ¬ ∃ r, D n r) (hne : ∀ as, PartOf (.alts as) pg → as ≠ [])
    {ts' ns} (h : IsForest g ts' ns) :
    ∀ {ts}, LowTs D ts ts' → (∀ t ∈ ts, PartOf (.term t) pg) → Spans pg (.terms ts) (splice (pg.map (·.lhs)) ns) := by
  induction h with
  | nil =>
    intro ts hl _
    cases ts with
    | nil => exact .nil
    | cons t ts => simp only [LowTs] at hl; obtain ⟨_, _, h, _⟩ := hl; cases h
  | terminal _ ih =>
    intro ts hl hp
    cases ts with
    | nil => simp only [LowTs] at hl; cases hl
    | cons t ts =>
      simp only [LowTs] at hl
      obtain ⟨t', ts', he, hl, hls⟩ := hl
      injection he with he1 he2
      subst he1 he2
      have ht := ih hls fun t h => hp t (List.mem_cons_of_mem _ h)
      refine .cons ?_ ht
      cases t with
      | simple t => simp only [LowT] at hl; subst hl; exact .terminal
      | group as => simp only [LowT] at hl; obtain ⟨_, _, h, _⟩ := hl; cases h
      | optional as => simp only [LowT] at hl; obtain ⟨_, _, h, _⟩ := hl; cases h
  | nonterminal ha hk _ ihk ih =>
    rename_i n e kids us us' _
    intro ts hl hp
    cases ts with
    | nil => simp only [LowTs] at hl; cases hl
    | cons t ts =>
      simp only [LowTs] at hl
      obtain ⟨t', ts', he, hl, hls⟩ := hl
      injection he with he1 he2
      subst he1 he2
      have ht := ih hls fun t h => hp t (List.mem_cons_of_mem _ h)
      refine .cons ?_ ht
      simp only [spliceNode]
      have hpt := hp t (List.mem_cons_self ..)
      have alt : ∀ {as rhs}, LowA D as rhs → PartOf (.alts as) pg → e ∈ rhs →
          Spans pg (.alts as) (splice (pg.map (·.lhs)) kids) := by
        intro as rhs hl hpa hm
        obtain ⟨e0, he0, hl0⟩ := lowA_mem hl e hm
        exact .choose he0 (ihk hl0 fun t ht => partOf_trans (.alts he0 (.terms ht .refl)) hpa)
      cases t with
      | simple t =>
        simp only [LowT] at hl; subst hl
        obtain ⟨p, hp', rfl, rhs, hl, hm⟩ := hn.user' _ _ ha (hyg _ hpt)
        rw [if_pos (mem_names.mpr ⟨p, hp', rfl⟩)]
        exact .nonterminal hp' (alt hl ⟨p, hp', .refl⟩ hm)
      | group as =>
        simp only [LowT] at hl
        obtain ⟨x, rhs, h, hd, hl⟩ := hl
        injection h with h
        subst h
        have hm := (hn.anon _ _ hd e).mp ha
        have hpa : PartOf (.alts as) pg := partOf_trans (.group .refl) hpt
        have : rhs ≠ [] := by
          intro h0
          have := lowA_length hl
          rw [h0] at this
          exact hne as hpa (List.length_eq_zero_iff.mp this.symm)
        rw [if_neg (by simpa using this)] at hm
        rw [if_neg (fun h => hn.fresh _ _ hd (mem_names.mp h))]
        exact .group (alt hl hpa hm)
      | optional as =>
        simp only [LowT] at hl
        obtain ⟨x, rhs, h, hd, hl⟩ := hl
        injection h with h
        subst h
        have hm := (hn.anon _ _ hd e).mp ha
        have hpa : PartOf (.alts as) pg := partOf_trans (.optional .refl) hpt
        rw [if_neg (fun h => hn.fresh _ _ hd (mem_names.mp h))]
        rcases List.mem_append.mp hm with hm | hm
        · exact .present (alt hl hpa hm)
        · rcases List.mem_singleton.mp hm with rfl
          simp only [emptyAlt] at hk
          cases hk with
          | terminal h =>
            cases h
            exact .absent

/-- A derivation whose tree without generated nodes is `ns`. -/
def SpanDerived (g : Grammar) (D : Str → List Expression → Prop) (pg : ParsedGrammar) (ns : List ParseTreeNode) : Item → Prop
  | .term t => PartOf (.term t) pg → ∀ t', LowT D t t' → ∃ ms, IsForest g [t'] ms ∧ splice (pg.map (·.lhs)) ms = ns
  | .terms ts => (∀ t ∈ ts, PartOf (.term t) pg) → ∀ ts', LowTs D ts ts' →
      ∃ ms, IsForest g ts' ms ∧ splice (pg.map (·.lhs)) ms = ns
  | .alts as => PartOf (.alts as) pg → ∀ rhs, LowA D as rhs →
      ∃ e ∈ rhs, ∃ ms, IsForest g e.terms ms ∧ splice (pg.map (·.lhs)) ms = ns

theorem forest_of_spans (hn : Normal pg g D) {i ns} (h : Spans pg i ns) : SpanDerived g D pg ns i := by
  induction h with
  | terminal =>
    intro _ t' hl
    simp only [LowT] at hl; subst hl
    exact ⟨_, .terminal .nil, by simp [splice, spliceNode]⟩
  | nonterminal hp _ ih =>
    intro _ t' hl
    simp only [LowT] at hl; subst hl
    obtain ⟨rhs, hl, ha⟩ := hn.user _ hp
    obtain ⟨e, he, ns, hf, hy⟩ := ih ⟨_, hp, .refl⟩ _ hl
    refine ⟨_, .nonterminal (ha e he) hf .nil, ?_⟩
    simp only [splice, spliceNode, List.append_nil]
    rw [if_pos (mem_names.mpr ⟨_, hp, rfl⟩), hy]
  | group _ ih =>
    intro hp t' hl
    simp only [LowT] at hl
    obtain ⟨x, rhs, rfl, hd, hl⟩ := hl
    obtain ⟨e, he, ns, hf, hy⟩ := ih (partOf_trans (.group .refl) hp) _ hl
    rw [if_neg (by intro h; rw [List.isEmpty_iff.mp h] at he; cases he)] at hd
    refine ⟨_, .nonterminal ((hn.anon _ _ hd e).mpr he) hf .nil, ?_⟩
    simp only [splice, spliceNode, List.append_nil]
    rw [if_neg (fun h => hn.fresh _ _ hd (mem_names.mp h)), hy]
  | present _ ih =>
    intro hp t' hl
    simp only [LowT] at hl
    obtain ⟨x, rhs, rfl, hd, hl⟩ := hl
    obtain ⟨e, he, ns, hf, hy⟩ := ih (partOf_trans (.optional .refl) hp) _ hl
    refine ⟨_, .nonterminal ((hn.anon _ _ hd e).mpr (List.mem_append_left _ he)) hf .nil, ?_⟩
    simp only [splice, spliceNode, List.append_nil]
    rw [if_neg (fun h => hn.fresh _ _ hd (mem_names.mp h)), hy]
  | absent =>
    intro hp t' hl
    simp only [LowT] at hl
    obtain ⟨x, rhs, rfl, hd, hl⟩ := hl
    refine ⟨_, .nonterminal ((hn.anon _ _ hd emptyAlt).mpr (List.mem_append_right _ (by simp))) (.terminal .nil) .nil, ?_⟩
    simp only [splice, spliceNode, List.append_nil]
    rw [if_neg (fun h => hn.fresh _ _ hd (mem_names.mp h))]
  | nil =>
    intro _ ts' hl
    simp only [LowTs] at hl; subst hl
    exact ⟨[], .nil, rfl⟩
  | cons _ _ ih1 ih2 =>
    intro hp ts' hl
    simp only [LowTs] at hl
    obtain ⟨t', us, rfl, hl, hls⟩ := hl
    obtain ⟨ns, h1, h2⟩ := ih1 (hp _ (List.mem_cons_self ..)) _ hl
    obtain ⟨ms, h3, h4⟩ := ih2 (fun t h => hp t (List.mem_cons_of_mem _ h)) _ hls
    exact ⟨ns ++ ms, isForest_append h1 h3, by rw [splice_append, h2, h4]⟩
  | choose hm _ ih =>
    intro hp rhs hl
    obtain ⟨e', he', hl'⟩ := lowA_mem' hl _ hm
    obtain ⟨ns, h1, h2⟩ := ih (fun t ht => partOf_trans (.alts hm (.terms ht .refl)) hp) _ hl'
    exact ⟨e', he', ns, h1, h2⟩

theorem normalize_trees (hn : normalizeParsedGrammar pg = some g) (hne : ∀ as, PartOf (.alts as) pg → as ≠ [])
    (hyg : ∀ n, UsedIn n pg → DeclaredIn n pg ∨ ∀ k, n ≠ anonName k) {n} (hd : DeclaredIn n pg) (w : Str)
    (kids : List ParseTreeNode) :
    (∃ t, IsParse g (.nonterminal n) w t ∧ splice (pg.map (·.lhs)) t.rhs = kids) ↔
      Spans pg (.term (.simple (.nonterminal n))) [.nonterminal (.nonterminal n) kids] ∧ yield kids = w := by
  obtain ⟨D, hD⟩ := normalize_normal hn
  have hyg' : ∀ n, UsedIn n pg → ¬ ∃ r, D n r := by
    rintro n hu ⟨r, hr⟩
    rcases hyg n hu with h | h
    · exact hD.fresh _ _ hr h
    · obtain ⟨k, hk⟩ := hD.name _ _ hr
      exact h k hk
  constructor
  · rintro ⟨t, ⟨hroot, ⟨e, ha, hf⟩, hy⟩, rfl⟩
    refine ⟨?_, by rw [yield_splice, hy]⟩
    rw [hroot] at ha
    obtain ⟨p, hp, rfl, rhs, hl, hm⟩ := hD.user' _ _ ha (by rintro ⟨r, hr⟩; exact hD.fresh _ _ hr hd)
    obtain ⟨e0, he0, hl0⟩ := lowA_mem hl e hm
    exact .nonterminal hp (.choose he0 (spans_of_forest hD hyg' hne hf hl0
      fun t ht => ⟨p, hp, .alts he0 (.terms ht .refl)⟩))
  · rintro ⟨h, hy⟩
    cases h with
    | nonterminal hp h =>
      obtain ⟨rhs, hl, ha⟩ := hD.user _ hp
      obtain ⟨e, he, ns, hf, hs⟩ := forest_of_spans hD h ⟨_, hp, .refl⟩ _ hl
      exact ⟨⟨_, ns⟩, ⟨rfl, ⟨e, ha e he, hf⟩, by rw [← hy, ← hs, yield_splice]⟩, hs⟩

end Bnf
