import Verif.Spec.Ebnf
import Verif.Spec.Derivation
import Verif.Proofs.TextMain
import Verif.Proofs.Basic

/-! # Normalization preserves the language -/

set_option autoImplicit false

namespace Bnf
open Spec

/-- What the proofs use about a normalized grammar. -/
structure Normal (pg : ParsedGrammar) (g : Grammar) (D : Str → List Expression → Prop) : Prop where
  user : ∀ p ∈ pg, ∃ rhs, LowA D p.rhs rhs ∧ ∀ e ∈ rhs, HasAlt g (.nonterminal p.lhs) e
  user' : ∀ n e, HasAlt g (.nonterminal n) e → (¬ ∃ r, D n r) → ∃ p ∈ pg, p.lhs = n ∧ ∃ rhs, LowA D p.rhs rhs ∧ e ∈ rhs
  anon : ∀ x r, D x r → ∀ e, HasAlt g (.nonterminal x) e ↔ e ∈ r
  fresh : ∀ x r, D x r → ¬ DeclaredIn x pg
  name : ∀ x r, D x r → ∃ k, x = anonName k

theorem normalize_normal {pg g} (h : normalizeParsedGrammar pg = some g) : ∃ D, Normal pg g D := by
  obtain ⟨user, anon, h1, h2, h3, h4, h5⟩ := normalize_spec h
  refine ⟨DefIn anon, ?_, ?_, ?_, ?_, ?_⟩
  · intro p hp
    obtain ⟨p', hp', hl, ha⟩ := forall₂_mem_left h2 p hp
    exact ⟨p'.rhs, ha, fun e he => ⟨p', by rw [h1]; exact List.mem_append_left _ hp', hl, he⟩⟩
  · rintro n e ⟨p', hp', hl, he⟩ hD
    rw [h1] at hp'
    rcases List.mem_append.mp hp' with hp' | hp'
    · obtain ⟨p, hp, hl', ha⟩ := forall₂_mem_right h2 p' hp'
      rw [hl] at hl'
      injection hl' with hl'
      exact ⟨p, hp, hl'.symm, _, ha, he⟩
    · exact absurd ⟨p'.rhs, by unfold DefIn; rw [← hl]; exact hp'⟩ hD
  · intro x r hd e
    constructor
    · rintro ⟨p', hp', hl, he⟩
      rw [h1] at hp'
      rcases List.mem_append.mp hp' with hp' | hp'
      · exfalso
        obtain ⟨p, hp, hl', ha⟩ := forall₂_mem_right h2 p' hp'
        obtain ⟨y, k, hy, hn, _⟩ := h4 _ hd
        injection hy with hy
        rw [hl] at hl'
        injection hl' with hl'
        exact hn (List.mem_map.mpr ⟨p, hp, by rw [← hl', hy]⟩)
      · have := List.inj_on_of_nodup_map h3 hp' hd hl
        rw [this] at he
        exact he
    · intro he
      exact ⟨_, by rw [h1]; exact List.mem_append_right _ hd, rfl, he⟩
  · rintro x r hd ⟨p, hp, rfl⟩
    obtain ⟨y, k, hy, hn, _⟩ := h4 _ hd
    injection hy with hy
    exact hn (List.mem_map.mpr ⟨p, hp, hy⟩)
  · intro x r hd
    obtain ⟨y, k, hy, _, hk⟩ := h4 _ hd
    injection hy with hy
    exact ⟨k, hy.trans hk⟩

variable {pg : ParsedGrammar} {g : Grammar} {D : Str → List Expression → Prop}

theorem forest_empty {ns} (h : IsForest g emptyAlt.terms ns) : yield ns = [] := by
  cases h with
  | terminal h => cases h; rfl

theorem partOf_trans {i j : Item} (h : Within i j) (hp : PartOf j pg) : PartOf i pg := by
  obtain ⟨p, hp, hw⟩ := hp
  exact ⟨p, hp, h.trans hw⟩

/-- From a derivation to the meaning of the text. -/
theorem means_of_forest (hn : Normal pg g D) (hyg : ∀ n, UsedIn n pg → ¬ ∃ r, D n r) (hne : ∀ as, PartOf (.alts as) pg → as ≠ [])
    {ts' ns} (h : IsForest g ts' ns) :
    ∀ {ts}, LowTs D ts ts' → (∀ t ∈ ts, PartOf (.term t) pg) → Means pg (.terms ts) (yield ns) := by
  induction h with
  | nil =>
    intro ts hl _
    cases ts with
    | nil => exact .nil
    | cons t ts => simp only [LowTs] at hl; obtain ⟨_, _, h, _⟩ := hl; cases h
  | terminal _ ih =>
    intro ts hl hp
    cases ts with
    | nil => simp only [LowTs] at hl; cases hl
    | cons t ts =>
      simp only [LowTs] at hl
      obtain ⟨t', ts', he, hl, hls⟩ := hl
      injection he with he1 he2
      subst he1 he2
      have ht := ih hls fun t h => hp t (List.mem_cons_of_mem _ h)
      refine .cons ?_ ht
      cases t with
      | simple t => simp only [LowT] at hl; subst hl; exact .terminal
      | group as => simp only [LowT] at hl; obtain ⟨_, _, h, _⟩ := hl; cases h
      | optional as => simp only [LowT] at hl; obtain ⟨_, _, h, _⟩ := hl; cases h
  | nonterminal ha hk _ ihk ih =>
    rename_i n e kids us us' _
    intro ts hl hp
    cases ts with
    | nil => simp only [LowTs] at hl; cases hl
    | cons t ts =>
      simp only [LowTs] at hl
      obtain ⟨t', ts', he, hl, hls⟩ := hl
      injection he with he1 he2
      subst he1 he2
      have ht := ih hls fun t h => hp t (List.mem_cons_of_mem _ h)
      refine .cons ?_ ht
      simp only [nodeYield]
      have hpt := hp t (List.mem_cons_self ..)
      have alt : ∀ {as rhs}, LowA D as rhs → PartOf (.alts as) pg → e ∈ rhs → Means pg (.alts as) (yield kids) := by
        intro as rhs hl hpa hm
        obtain ⟨e0, he0, hl0⟩ := lowA_mem hl e hm
        exact .choose he0 (ihk hl0 fun t ht => partOf_trans (.alts he0 (.terms ht .refl)) hpa)
      cases t with
      | simple t =>
        simp only [LowT] at hl; subst hl
        obtain ⟨p, hp', rfl, rhs, hl, hm⟩ := hn.user' _ _ ha (hyg _ hpt)
        exact .nonterminal hp' (alt hl ⟨p, hp', .refl⟩ hm)
      | group as =>
        simp only [LowT] at hl
        obtain ⟨x, rhs, h, hd, hl⟩ := hl
        injection h with h
        subst h
        have hm := (hn.anon _ _ hd e).mp ha
        have hpa : PartOf (.alts as) pg := partOf_trans (.group .refl) hpt
        have : rhs ≠ [] := by
          intro h0
          have := lowA_length hl
          rw [h0] at this
          exact hne as hpa (List.length_eq_zero_iff.mp this.symm)
        rw [if_neg (by simpa using this)] at hm
        exact .group (alt hl hpa hm)
      | optional as =>
        simp only [LowT] at hl
        obtain ⟨x, rhs, h, hd, hl⟩ := hl
        injection h with h
        subst h
        have hm := (hn.anon _ _ hd e).mp ha
        have hpa : PartOf (.alts as) pg := partOf_trans (.optional .refl) hpt
        rcases List.mem_append.mp hm with hm | hm
        · exact .present (alt hl hpa hm)
        · rcases List.mem_singleton.mp hm with rfl
          rw [forest_empty hk]
          exact .absent

/-- What a derivation for a part of the text is. -/
def Derived (g : Grammar) (D : Str → List Expression → Prop) (pg : ParsedGrammar) (w : Str) : Item → Prop
  | .term t => PartOf (.term t) pg → ∀ t', LowT D t t' → ∃ ns, IsForest g [t'] ns ∧ yield ns = w
  | .terms ts => (∀ t ∈ ts, PartOf (.term t) pg) → ∀ ts', LowTs D ts ts' → ∃ ns, IsForest g ts' ns ∧ yield ns = w
  | .alts as => PartOf (.alts as) pg → ∀ rhs, LowA D as rhs → ∃ e ∈ rhs, ∃ ns, IsForest g e.terms ns ∧ yield ns = w

theorem isForest_append {ts us : List Term} {ns ms} (h : IsForest g ts ns) (h' : IsForest g us ms) :
    IsForest g (ts ++ us) (ns ++ ms) := by
  induction h with
  | nil => exact h'
  | terminal _ ih => exact .terminal ih
  | nonterminal ha hk _ _ ih => exact .nonterminal ha hk ih

theorem yield_append' (ns ms : List ParseTreeNode) : yield (ns ++ ms) = yield ns ++ yield ms := by
  induction ns with
  | nil => rfl
  | cons n ns ih => simp [yield, ih]

theorem forest_of_means (hn : Normal pg g D) {i w} (h : Means pg i w) : Derived g D pg w i := by
  induction h with
  | terminal =>
    intro _ t' hl
    simp only [LowT] at hl; subst hl
    exact ⟨_, .terminal .nil, by simp [yield, nodeYield]⟩
  | nonterminal hp _ ih =>
    intro _ t' hl
    simp only [LowT] at hl; subst hl
    obtain ⟨rhs, hl, ha⟩ := hn.user _ hp
    obtain ⟨e, he, ns, hf, hy⟩ := ih ⟨_, hp, .refl⟩ _ hl
    exact ⟨_, .nonterminal (ha e he) hf .nil, by simp [yield, nodeYield, hy]⟩
  | group _ ih =>
    intro hp t' hl
    simp only [LowT] at hl
    obtain ⟨x, rhs, rfl, hd, hl⟩ := hl
    obtain ⟨e, he, ns, hf, hy⟩ := ih (partOf_trans (.group .refl) hp) _ hl
    rw [if_neg (by intro h; rw [List.isEmpty_iff.mp h] at he; cases he)] at hd
    exact ⟨_, .nonterminal ((hn.anon _ _ hd e).mpr he) hf .nil, by simp [yield, nodeYield, hy]⟩
  | present _ ih =>
    intro hp t' hl
    simp only [LowT] at hl
    obtain ⟨x, rhs, rfl, hd, hl⟩ := hl
    obtain ⟨e, he, ns, hf, hy⟩ := ih (partOf_trans (.optional .refl) hp) _ hl
    exact ⟨_, .nonterminal ((hn.anon _ _ hd e).mpr (List.mem_append_left _ he)) hf .nil, by simp [yield, nodeYield, hy]⟩
  | absent =>
    intro hp t' hl
    simp only [LowT] at hl
    obtain ⟨x, rhs, rfl, hd, hl⟩ := hl
    exact ⟨_, .nonterminal ((hn.anon _ _ hd emptyAlt).mpr (List.mem_append_right _ (by simp))) (.terminal .nil) .nil, rfl⟩
  | nil =>
    intro _ ts' hl
    simp only [LowTs] at hl; subst hl
    exact ⟨[], .nil, rfl⟩
  | cons _ _ ih1 ih2 =>
    intro hp ts' hl
    simp only [LowTs] at hl
    obtain ⟨t', us, rfl, hl, hls⟩ := hl
    obtain ⟨ns, h1, h2⟩ := ih1 (hp _ (List.mem_cons_self ..)) _ hl
    obtain ⟨ms, h3, h4⟩ := ih2 (fun t h => hp t (List.mem_cons_of_mem _ h)) _ hls
    exact ⟨ns ++ ms, isForest_append h1 h3, by rw [yield_append', h2, h4]⟩
  | choose hm _ ih =>
    intro hp rhs hl
    obtain ⟨e', he', hl'⟩ := lowA_mem' hl _ hm
    obtain ⟨ns, h1, h2⟩ := ih (fun t ht => partOf_trans (.alts hm (.terms ht .refl)) hp) _ hl'
    exact ⟨e', he', ns, h1, h2⟩

theorem normalize_language (hn : normalizeParsedGrammar pg = some g) (hne : ∀ as, PartOf (.alts as) pg → as ≠ [])
    (hyg : ∀ n, UsedIn n pg → DeclaredIn n pg ∨ ∀ k, n ≠ anonName k) {n} (hd : DeclaredIn n pg) (w : Str) :
    Derives g (.nonterminal n) w ↔ Means pg (.term (.simple (.nonterminal n))) w := by
  obtain ⟨D, hD⟩ := normalize_normal hn
  have hyg' : ∀ n, UsedIn n pg → ¬ ∃ r, D n r := by
    rintro n hu ⟨r, hr⟩
    rcases hyg n hu with h | h
    · exact hD.fresh _ _ hr h
    · obtain ⟨k, hk⟩ := hD.name _ _ hr
      exact h k hk
  constructor
  · rintro ⟨t, hroot, ⟨e, ha, hf⟩, hy⟩
    rw [hroot] at ha
    obtain ⟨p, hp, rfl, rhs, hl, hm⟩ := hD.user' _ _ ha (by rintro ⟨r, hr⟩; exact hD.fresh _ _ hr hd)
    obtain ⟨e0, he0, hl0⟩ := lowA_mem hl e hm
    rw [← hy]
    exact .nonterminal hp (.choose he0 (means_of_forest hD hyg' hne hf hl0
      fun t ht => ⟨p, hp, .alts he0 (.terms ht .refl)⟩))
  · intro h
    cases h with
    | nonterminal hp h =>
      obtain ⟨rhs, hl, ha⟩ := hD.user _ hp
      obtain ⟨e, he, ns, hf, hy⟩ := forest_of_means hD h ⟨_, hp, .refl⟩ _ hl
      exact ⟨⟨_, ns⟩, rfl, ⟨e, ha e he, hf⟩, hy⟩

/-! ## Optionals as groups -/

/-- Lowering of a part. -/
def lowerItem : Item → NormState → Option ((Term ⊕ List Term ⊕ List Expression) × NormState)
  | .term t, st => (lowerTerm t st).map fun p => (.inl p.1, p.2)
  | .terms ts, st => (lowerTerms ts st).map fun p => (.inr (.inl p.1), p.2)
  | .alts as, st => (lowerAlts as st).map fun p => (.inr (.inr p.1), p.2)

theorem lowerTerm_item {t t' : ParsedTerm} {st st'} (h : lowerItem (.term t) st = lowerItem (.term t') st') :
    lowerTerm t st = lowerTerm t' st' := by
  simp only [lowerItem] at h
  cases h1 : lowerTerm t st <;> cases h2 : lowerTerm t' st' <;> simp [h1, h2] at h ⊢
  exact Prod.ext_iff.mpr h

theorem lowerTerms_item {t t' : List ParsedTerm} {st st'} (h : lowerItem (.terms t) st = lowerItem (.terms t') st') :
    lowerTerms t st = lowerTerms t' st' := by
  simp only [lowerItem] at h
  cases h1 : lowerTerms t st <;> cases h2 : lowerTerms t' st' <;> simp [h1, h2] at h ⊢
  exact Prod.ext_iff.mpr h

theorem lowerAlts_item {t t' : List (List ParsedTerm)} {st st'} (h : lowerItem (.alts t) st = lowerItem (.alts t') st') :
    lowerAlts t st = lowerAlts t' st' := by
  simp only [lowerItem] at h
  cases h1 : lowerAlts t st <;> cases h2 : lowerAlts t' st' <;> simp [h1, h2] at h ⊢
  exact Prod.ext_iff.mpr h

theorem lowerAlts_snoc : ∀ (as : List (List ParsedTerm)) (st : NormState), lowerAlts (as ++ [[.simple (.terminal [])]]) st =
    (lowerAlts as st).map fun p => (p.1 ++ [emptyAlt], p.2)
  | [], st => by simp [lowerAlts, lowerTerms, lowerTerm, emptyAlt]
  | e :: as, st => by
    simp only [List.cons_append, lowerAlts]
    cases lowerTerms e st with
    | none => rfl
    | some p =>
      simp only
      rw [lowerAlts_snoc as]
      cases lowerAlts as p.2 <;> rfl

theorem unoption_lower {i j : Item} (h : Unoption i j) (st : NormState) : lowerItem j st = lowerItem i st := by
  induction h generalizing st with
  | refl => rfl
  | group _ ih =>
    simp only [lowerItem, lowerTerm]
    cases freshAnonName st with
    | none => rfl
    | some p => simp only; rw [lowerAlts_item (ih p.2)]
  | inside _ ih =>
    simp only [lowerItem, lowerTerm]
    cases freshAnonName st with
    | none => rfl
    | some p => simp only; rw [lowerAlts_item (ih p.2)]
  | replace _ ih =>
    simp only [lowerItem, lowerTerm]
    cases freshAnonName st with
    | none => rfl
    | some p =>
      simp only
      rw [lowerAlts_snoc, lowerAlts_item (ih p.2)]
      rename_i as as' _
      cases lowerAlts as p.2 with
      | none => rfl
      | some q => simp
  | terms _ _ ih1 ih2 =>
    simp only [lowerItem, lowerTerms]
    rw [lowerTerm_item (ih1 st)]
    rename_i t t' ts ts' _ _
    cases lowerTerm t st with
    | none => rfl
    | some p => simp only; rw [lowerTerms_item (ih2 p.2)]
  | alts _ _ ih1 ih2 =>
    simp only [lowerItem, lowerAlts]
    rw [lowerTerms_item (ih1 st)]
    rename_i t t' ts ts' _ _
    cases lowerTerms t st with
    | none => rfl
    | some p => simp only; rw [lowerAlts_item (ih2 p.2)]

theorem unoption_normalize {pg pg'} (h : UnoptionGrammar pg pg') : normalizeParsedGrammar pg' = normalizeParsedGrammar pg := by
  have h1 : pg'.map (·.lhs) = pg.map (·.lhs) := by
    induction h with
    | nil => rfl
    | cons _ _ ih => simp [ih]
  have h2 : ∀ st, lowerProds pg' st = lowerProds pg st := by
    induction h with
    | nil => intro st; rfl
    | cons hu _ ih =>
      intro st
      rename_i u as as' g g' h0
      simp only [lowerProds]
      rw [lowerAlts_item (unoption_lower hu st)]
      cases lowerAlts as st with
      | none => rfl
      | some p =>
        simp only
        rw [ih (by simpa using h1)]
  unfold normalizeParsedGrammar
  rw [h1, h2]

end Bnf
