import Verif.Spec.Ways
import Verif.Proofs.Splice
import Verif.Proofs.Multiplicity

/-! # Ways to derive a text and annotated derivations of the normalized grammar -/

set_option autoImplicit false

namespace Bnf
open Spec

/-! ## Positions in a list of lists -/

/-- Number of elements before the `i`-th list. -/
def offsetOf {α β : Type} (f : α → List β) (l : List α) (i : Nat) : Nat := ((l.take i).map fun a => (f a).length).sum

section
variable {α β : Type} {f : α → List β}

theorem offset_zero (l : List α) : offsetOf f l 0 = 0 := by simp [offsetOf]

theorem offset_succ (a : α) (l : List α) (i : Nat) : offsetOf f (a :: l) (i + 1) = (f a).length + offsetOf f l i := by
  simp [offsetOf]

theorem flat_get {l : List α} : ∀ {i j : Nat} {a : α} {b : β}, l[i]? = some a → (f a)[j]? = some b →
    (l.flatMap f)[offsetOf f l i + j]? = some b := by
  induction l with
  | nil => intro i j a b h; simp at h
  | cons c l ih =>
    intro i j a b h h'
    cases i with
    | zero =>
      simp only [List.getElem?_cons_zero, Option.some.injEq] at h
      subst h
      rw [offset_zero, Nat.zero_add, List.flatMap_cons, List.getElem?_append_left]
      · exact h'
      · exact (List.getElem?_eq_some_iff.mp h').1
    | succ i =>
      rw [List.getElem?_cons_succ] at h
      rw [offset_succ, List.flatMap_cons, List.getElem?_append_right (by omega), ← ih h h']
      congr 1; omega

theorem flat_exists {l : List α} : ∀ {k : Nat} {b : β}, (l.flatMap f)[k]? = some b →
    ∃ i j a, l[i]? = some a ∧ (f a)[j]? = some b ∧ k = offsetOf f l i + j := by
  induction l with
  | nil => intro k b h; simp at h
  | cons c l ih =>
    intro k b h
    rw [List.flatMap_cons] at h
    by_cases hk : k < (f c).length
    · rw [List.getElem?_append_left hk] at h
      exact ⟨0, k, c, rfl, h, by simp [offset_zero]⟩
    · rw [List.getElem?_append_right (by omega)] at h
      obtain ⟨i, j, a, h1, h2, h3⟩ := ih h
      exact ⟨i + 1, j, a, by simpa using h1, h2, by rw [offset_succ]; omega⟩

theorem flat_inj {l : List α} : ∀ {i j i' j' : Nat} {a a' : α}, l[i]? = some a → j < (f a).length → l[i']? = some a' →
    j' < (f a').length → offsetOf f l i + j = offsetOf f l i' + j' → i = i' ∧ j = j' := by
  induction l with
  | nil => intro i j i' j' a a' h; simp at h
  | cons c l ih =>
    intro i j i' j' a a' h hj h' hj' he
    cases i with
    | zero =>
      simp only [List.getElem?_cons_zero, Option.some.injEq] at h
      subst h
      cases i' with
      | zero => simp only [offset_zero] at he; exact ⟨rfl, by omega⟩
      | succ i' => rw [offset_zero, offset_succ] at he; omega
    | succ i =>
      rw [List.getElem?_cons_succ] at h
      cases i' with
      | zero =>
        simp only [List.getElem?_cons_zero, Option.some.injEq] at h'
        subst h'
        rw [offset_zero, offset_succ] at he; omega
      | succ i' =>
        rw [List.getElem?_cons_succ] at h'
        rw [offset_succ, offset_succ] at he
        obtain ⟨h1, h2⟩ := ih h hj h' hj' (by omega)
        exact ⟨by omega, h2⟩
end

/-! ## Productions of a normalized grammar, with positions -/

/-- The position of the first production for a term. -/
def indexOf (g : Grammar) (t : Term) : Nat := g.productions.findIdx fun p => decide (p.lhs = t)

/-- What the proofs use about a normalized grammar. -/
structure Placed (pg : ParsedGrammar) (g : Grammar) (D : Str → List Expression → Prop) : Prop where
  user : ∀ (i : Nat) (p : ParsedProduction), pg[i]? = some p → ∃ p' : Production, g.productions[i]? = some p' ∧ p'.lhs = .nonterminal p.lhs ∧ LowA D p.rhs p'.rhs
  user' : ∀ (i : Nat) (p' : Production) (n : Str), g.productions[i]? = some p' → p'.lhs = .nonterminal n → (¬ ∃ r, D n r) →
    ∃ p : ParsedProduction, pg[i]? = some p ∧ p.lhs = n ∧ LowA D p.rhs p'.rhs
  anon : ∀ x r, D x r → g.productions[indexOf g (.nonterminal x)]? = some ⟨.nonterminal x, r⟩
  anon' : ∀ (x : Str) (r : List Expression) (i : Nat) (p' : Production), D x r → g.productions[i]? = some p' → p'.lhs = .nonterminal x → i = indexOf g (.nonterminal x)
  fresh : ∀ x r, D x r → ¬ DeclaredIn x pg
  name : ∀ x r, D x r → ∃ k, x = anonName k

theorem forall₂_get {α β : Type} {R : α → β → Prop} {l : List α} {m : List β} (h : List.Forall₂ R l m) :
    ∀ {i : Nat} {a : α}, l[i]? = some a → ∃ b, m[i]? = some b ∧ R a b := by
  induction h with
  | nil => intro i a h; simp at h
  | cons hab _ ih =>
    intro i a h
    cases i with
    | zero => simp only [List.getElem?_cons_zero, Option.some.injEq] at h; subst h; exact ⟨_, rfl, hab⟩
    | succ i => simpa using ih (by simpa using h)

theorem forall₂_get' {α β : Type} {R : α → β → Prop} {l : List α} {m : List β} (h : List.Forall₂ R l m) :
    ∀ {i : Nat} {b : β}, m[i]? = some b → ∃ a, l[i]? = some a ∧ R a b := by
  induction h with
  | nil => intro i a h; simp at h
  | cons hab _ ih =>
    intro i a h
    cases i with
    | zero => simp only [List.getElem?_cons_zero, Option.some.injEq] at h; subst h; exact ⟨_, rfl, hab⟩
    | succ i => simpa using ih (by simpa using h)

theorem normalize_placed {pg g} (h : normalizeParsedGrammar pg = some g) : ∃ D, Placed pg g D := by
  obtain ⟨user, anon, h1, h2, h3, h4, _⟩ := normalize_spec h
  have hlen : pg.length = user.length := h2.length_eq
  have uniq : ∀ x r i p', DefIn anon x r → g.productions[i]? = some p' → p'.lhs = .nonterminal x →
      user.length ≤ i ∧ anon[i - user.length]? = some ⟨.nonterminal x, r⟩ := by
    intro x r i p' hd hp hl
    rw [h1] at hp
    by_cases hi : i < user.length
    · exfalso
      rw [List.getElem?_append_left hi] at hp
      obtain ⟨p, hp1, hp2⟩ := forall₂_get' h2 hp
      obtain ⟨y, k, hy, hn, _⟩ := h4 _ hd
      injection hy with hy
      have hl' := hp2.1
      rw [hl] at hl'
      injection hl' with hl'
      exact hn (List.mem_map.mpr ⟨p, List.mem_of_getElem? hp1, by rw [← hl', hy]⟩)
    · rw [List.getElem?_append_right (by omega)] at hp
      have := List.inj_on_of_nodup_map h3 (List.mem_of_getElem? hp) hd hl
      rw [this] at hp
      exact ⟨by omega, hp⟩
  have hndA : anon.Nodup := h3.of_map _
  have anonG : ∀ x r, DefIn anon x r → g.productions[indexOf g (.nonterminal x)]? = some ⟨.nonterminal x, r⟩ := by
    intro x r hd
    have hmem : ∃ p ∈ g.productions, decide (p.lhs = .nonterminal x) = true :=
      ⟨⟨.nonterminal x, r⟩, by rw [h1]; exact List.mem_append_right _ hd, by simp⟩
    have hlt := List.findIdx_lt_length_of_exists hmem
    have hp := List.findIdx_getElem (w := hlt)
    have hl := of_decide_eq_true hp
    obtain ⟨a, b⟩ := uniq x r _ _ hd (List.getElem?_eq_getElem hlt) hl
    have hi : indexOf g (.nonterminal x) = g.productions.findIdx fun p => decide (p.lhs = .nonterminal x) := rfl
    rw [← hi] at a b
    generalize indexOf g (.nonterminal x) = i at a b ⊢
    rw [h1, List.getElem?_append_right a]
    exact b
  refine ⟨DefIn anon, ?_, ?_, anonG, ?_, ?_, ?_⟩
  · intro i p hp
    obtain ⟨p', hp1, hp2⟩ := forall₂_get h2 hp
    refine ⟨p', ?_, hp2⟩
    rw [h1, List.getElem?_append_left]
    · exact hp1
    · exact (List.getElem?_eq_some_iff.mp hp1).1
  · intro i p' n hp hl hD
    rw [h1] at hp
    by_cases hi : i < user.length
    · rw [List.getElem?_append_left hi] at hp
      obtain ⟨p, hp1, hp2⟩ := forall₂_get' h2 hp
      have := hp2.1
      rw [hl] at this
      injection this with this
      exact ⟨p, hp1, this.symm, hp2.2⟩
    · rw [List.getElem?_append_right (by omega)] at hp
      exact absurd ⟨p'.rhs, by unfold DefIn; rw [← hl]; exact List.mem_of_getElem? hp⟩ hD
  · intro x r i p' hd hp hl
    obtain ⟨a1, a2⟩ := uniq x r i p' hd hp hl
    obtain ⟨b1, b2⟩ := uniq x r _ _ hd (anonG x r hd) rfl
    obtain ⟨c1, c2⟩ := List.getElem?_eq_some_iff.mp a2
    obtain ⟨d1, d2⟩ := List.getElem?_eq_some_iff.mp b2
    have := (List.Nodup.getElem_inj_iff hndA).mp (c2.trans d2.symm)
    omega
  · rintro x r hd ⟨p, hp, rfl⟩
    obtain ⟨y, k, hy, hn, _⟩ := h4 _ hd
    injection hy with hy
    exact hn (List.mem_map.mpr ⟨p, hp, hy⟩)
  · intro x r hd
    obtain ⟨y, k, hy, _, hk⟩ := h4 _ hd
    injection hy with hy
    exact ⟨k, hy.trans hk⟩

theorem lowA_get {D : Str → List Expression → Prop} : ∀ {as : List (List ParsedTerm)} {as'}, LowA D as as' →
    ∀ {j : Nat} {e : List ParsedTerm}, as[j]? = some e → ∃ e' : Expression, as'[j]? = some e' ∧ LowTs D e e'.terms
  | [], as', h, j, e, he => by simp at he
  | t :: ts, ts', h, j, e, he => by
    simp only [LowA] at h
    obtain ⟨a, as, rfl, h1, h2⟩ := h
    cases j with
    | zero => simp only [List.getElem?_cons_zero, Option.some.injEq] at he; subst he; exact ⟨a, rfl, h1⟩
    | succ j => simpa using lowA_get h2 (by simpa using he)

theorem lowA_get' {D : Str → List Expression → Prop} : ∀ {as : List (List ParsedTerm)} {as'}, LowA D as as' →
    ∀ {j : Nat} {e' : Expression}, as'[j]? = some e' → ∃ e, as[j]? = some e ∧ LowTs D e e'.terms
  | [], as', h, j, e, he => by simp only [LowA] at h; subst h; simp at he
  | t :: ts, ts', h, j, e, he => by
    simp only [LowA] at h
    obtain ⟨a, as, rfl, h1, h2⟩ := h
    cases j with
    | zero => simp only [List.getElem?_cons_zero, Option.some.injEq] at he; subst he; exact ⟨t, rfl, h1⟩
    | succ j => simpa using lowA_get' h2 (by simpa using he)

/-! ## The annotated derivation of a way -/

/-- The terms of an alternative. -/
def altTerms (g : Grammar) (i j : Nat) : List Term :=
  match g.productions[i]? with
  | some p => match p.rhs[j]? with
    | some e => e.terms
    | none => []
  | none => []

/-- The last alternative. -/
def lastAlt (g : Grammar) (i : Nat) : Nat :=
  match g.productions[i]? with
  | some p => p.rhs.length - 1
  | none => 0

/-- The number of an alternative among all alternatives. -/
def altId (g : Grammar) (i j : Nat) : Nat := offsetOf (fun p : Production => p.rhs) g.productions i + j

mutual
def wayNode (g : Grammar) : Term → Choices → DNode
  | .terminal u, .leaf => .leaf u
  | .nonterminal _, .leaf => .leaf []
  | _, .node i j kids => .node (altId g i j) (wayForest g (altTerms g i j) kids)
  | t, .chosen j kids => .node (altId g (indexOf g t) j) (wayForest g (altTerms g (indexOf g t) j) kids)
  | t, .absent => .node (altId g (indexOf g t) (lastAlt g (indexOf g t))) [.leaf []]
def wayForest (g : Grammar) : List Term → List Choices → List DNode
  | t :: ts, x :: ws => wayNode g t x :: wayForest g ts ws
  | [], _ => []
  | _ :: _, [] => []
end

theorem altTerms_eq {g : Grammar} {i j p e} (h : g.productions[i]? = some p) (h' : p.rhs[j]? = some e) :
    altTerms g i j = e.terms := by simp [altTerms, h, h']

theorem flat_alt {g : Grammar} {i j : Nat} {p : Production} {e : Expression} (h : g.productions[i]? = some p) (h' : p.rhs[j]? = some e) :
    ∃ q : FlatProd, (ParseGrammar.newUnchecked g).productions[altId g i j]? = some q ∧ q.lhs = p.lhs ∧ q.rhs = e := by
  apply flatProds_getElem?'
  have := flat_get (f := fun p : Production => p.rhs.map fun e => (p.lhs, e)) h (j := j) (b := (p.lhs, e)) (by simp [h'])
  simpa [offsetOf, altId, Grammar.flatProds] using this

theorem flat_alt' {g : Grammar} {pid : Nat} {q : FlatProd} (h : (ParseGrammar.newUnchecked g).productions[pid]? = some q) :
    ∃ i j p, g.productions[i]? = some p ∧ p.rhs[j]? = some q.rhs ∧ p.lhs = q.lhs ∧ pid = altId g i j := by
  have h1 := flatProds_getElem? h
  have h2 : (g.productions.flatMap fun p : Production => p.rhs.map fun e => (p.lhs, e))[pid]? = some (q.lhs, q.rhs) := by
    simpa [Grammar.flatProds] using h1
  obtain ⟨i, j, p, h3, h4, h5⟩ := flat_exists h2
  rw [List.getElem?_map] at h4
  cases h6 : p.rhs[j]? with
  | none => simp [h6] at h4
  | some e =>
    simp only [h6, Option.map_some, Option.some.injEq, Prod.mk.injEq] at h4
    exact ⟨i, j, p, h3, by rw [h6, h4.2], h4.1, by simpa [offsetOf, altId] using h5⟩

theorem altId_inj {g : Grammar} {i j i' j' : Nat} {p p' : Production} {e e' : Expression} (h1 : g.productions[i]? = some p)
    (h2 : p.rhs[j]? = some e) (h3 : g.productions[i']? = some p') (h4 : p'.rhs[j']? = some e') (h : altId g i j = altId g i' j') :
    i = i' ∧ j = j' :=
  flat_inj (f := fun p : Production => p.rhs) h1 (List.getElem?_eq_some_iff.mp h2).1 h3 (List.getElem?_eq_some_iff.mp h4).1 h

variable {pg : ParsedGrammar} {g : Grammar} {D : Str → List Expression → Prop}

/-- An alternative of a group. -/
theorem Placed.group (hp : Placed pg g D) {as rhs x} (hd : D x (if rhs.isEmpty then [emptyAlt] else rhs)) (hl : LowA D as rhs)
    {j : Nat} {e : List ParsedTerm} (he : as[j]? = some e) : ∃ (p : Production) (e' : Expression), g.productions[indexOf g (.nonterminal x)]? = some p ∧ p.lhs = .nonterminal x ∧
      p.rhs[j]? = some e' ∧ LowTs D e e'.terms := by
  obtain ⟨e', h1, h2⟩ := lowA_get hl he
  have hne : rhs ≠ [] := by rintro rfl; simp at h1
  rw [if_neg (by simpa using hne)] at hd
  exact ⟨_, e', hp.anon _ _ hd, rfl, h1, h2⟩

/-- An alternative of an optional. -/
theorem Placed.optional (hp : Placed pg g D) {as rhs x} (hd : D x (rhs ++ [emptyAlt])) (hl : LowA D as rhs)
    {j : Nat} {e : List ParsedTerm} (he : as[j]? = some e) : ∃ (p : Production) (e' : Expression), g.productions[indexOf g (.nonterminal x)]? = some p ∧ p.lhs = .nonterminal x ∧
      p.rhs[j]? = some e' ∧ LowTs D e e'.terms := by
  obtain ⟨e', h1, h2⟩ := lowA_get hl he
  exact ⟨_, e', hp.anon _ _ hd, rfl, by
    rw [List.getElem?_append_left (List.getElem?_eq_some_iff.mp h1).1]; exact h1, h2⟩

/-- The alternative `''` of an optional. -/
theorem Placed.omit (hp : Placed pg g D) {as rhs x} (hd : D x (rhs ++ [emptyAlt])) (hl : LowA D as rhs) :
    lastAlt g (indexOf g (.nonterminal x)) = as.length ∧ ∃ p, g.productions[indexOf g (.nonterminal x)]? = some p ∧
      p.lhs = .nonterminal x ∧ p.rhs[as.length]? = some emptyAlt := by
  have h := hp.anon _ _ hd
  have hlen := lowA_length hl
  refine ⟨by simp [lastAlt, h, hlen], _, h, rfl, ?_⟩
  simp only
  rw [← hlen]
  simp

/-- Splicing the node of a declared name. -/
theorem splice_user {names : List Str} {n : Str} {kids ns} (h : n ∈ names) :
    splice names (.nonterminal (.nonterminal n) kids :: ns) = .nonterminal (.nonterminal n) (splice names kids) :: splice names ns := by
  simp [splice, spliceNode, h]

theorem splice_anon {names : List Str} {n : Str} {kids ns} (h : n ∉ names) :
    splice names (.nonterminal (.nonterminal n) kids :: ns) = splice names kids ++ splice names ns := by
  simp [splice, spliceNode, h]

theorem Placed.fresh_names (hp : Placed pg g D) {x r} (hd : D x r) : x ∉ pg.map (·.lhs) := fun h => hp.fresh _ _ hd (mem_names.mp h)

/-- The derivation of a way is valid and has the nodes of the way. -/
theorem way_valid (hp : Placed pg g D) {ts ws ns} (h : IsWay pg ts ws ns) : ∀ {ts'}, LowTs D ts ts' →
    VF (ParseGrammar.newUnchecked g) ts' (wayForest g ts' ws) ∧
      splice (pg.map (·.lhs)) (erase (ParseGrammar.newUnchecked g) (wayForest g ts' ws)) = ns := by
  induction h with
  | nil => intro ts' hl; simp only [LowTs] at hl; subst hl; exact ⟨by simp only [wayForest]; exact .nil, by simp [wayForest, erase, splice]⟩
  | terminal _ ih =>
    intro ts' hl
    simp only [LowTs] at hl
    obtain ⟨t', us, rfl, hl, hls⟩ := hl
    simp only [LowT] at hl; subst hl
    obtain ⟨h1, h2⟩ := ih hls
    simp only [wayForest, wayNode]
    exact ⟨.leaf h1, by simp [erase, eraseNode, splice, spliceNode, h2]⟩
  | @nonterminal i j p e kids ks ts ws ns hi hj _ _ ih1 ih2 =>
    intro ts' hl
    simp only [LowTs] at hl
    obtain ⟨t', us, rfl, hl, hls⟩ := hl
    simp only [LowT] at hl; subst hl
    obtain ⟨p', hp1, hp2, hp3⟩ := hp.user _ _ hi
    obtain ⟨e', he1, he2⟩ := lowA_get hp3 hj
    obtain ⟨h1, h2⟩ := ih1 he2
    obtain ⟨h3, h4⟩ := ih2 hls
    obtain ⟨q, hq1, hq2, hq3⟩ := flat_alt hp1 he1
    simp only [wayForest, wayNode, altTerms_eq hp1 he1]
    refine ⟨.node hq1 (hq2.trans hp2) (by rw [hq3]; exact h1) h3, ?_⟩
    rw [erase, eraseNode, lhsOf_eq hq1, hq2, hp2, splice_user (mem_names.mpr ⟨p, List.mem_of_getElem? hi, rfl⟩), h2, h4]
  | @group j as e kids ks ts ws ns hj _ _ ih1 ih2 =>
    intro ts' hl
    simp only [LowTs] at hl
    obtain ⟨t', us, rfl, hl, hls⟩ := hl
    simp only [LowT] at hl
    obtain ⟨x, rhs, rfl, hd, hl⟩ := hl
    obtain ⟨p', e', hp1, hp2, he1, he2⟩ := hp.group hd hl hj
    obtain ⟨h1, h2⟩ := ih1 he2
    obtain ⟨h3, h4⟩ := ih2 hls
    obtain ⟨q, hq1, hq2, hq3⟩ := flat_alt hp1 he1
    simp only [wayForest, wayNode, altTerms_eq hp1 he1]
    refine ⟨.node hq1 (hq2.trans hp2) (by rw [hq3]; exact h1) h3, ?_⟩
    rw [erase, eraseNode, lhsOf_eq hq1, hq2, hp2, splice_anon (hp.fresh_names hd), h2, h4]
  | @present j as e kids ks ts ws ns hj _ _ ih1 ih2 =>
    intro ts' hl
    simp only [LowTs] at hl
    obtain ⟨t', us, rfl, hl, hls⟩ := hl
    simp only [LowT] at hl
    obtain ⟨x, rhs, rfl, hd, hl⟩ := hl
    obtain ⟨p', e', hp1, hp2, he1, he2⟩ := hp.optional hd hl hj
    obtain ⟨h1, h2⟩ := ih1 he2
    obtain ⟨h3, h4⟩ := ih2 hls
    obtain ⟨q, hq1, hq2, hq3⟩ := flat_alt hp1 he1
    simp only [wayForest, wayNode, altTerms_eq hp1 he1]
    refine ⟨.node hq1 (hq2.trans hp2) (by rw [hq3]; exact h1) h3, ?_⟩
    rw [erase, eraseNode, lhsOf_eq hq1, hq2, hp2, splice_anon (hp.fresh_names hd), h2, h4]
  | @absent as ts ws ns _ ih =>
    intro ts' hl
    simp only [LowTs] at hl
    obtain ⟨t', us, rfl, hl, hls⟩ := hl
    simp only [LowT] at hl
    obtain ⟨x, rhs, rfl, hd, hl⟩ := hl
    obtain ⟨h3, h4⟩ := ih hls
    obtain ⟨h0, p', hp1, hp2, he1⟩ := hp.omit hd hl
    obtain ⟨q, hq1, hq2, hq3⟩ := flat_alt hp1 he1
    simp only [wayForest, wayNode, h0]
    refine ⟨.node hq1 (hq2.trans hp2) (by rw [hq3]; exact .leaf .nil) h3, ?_⟩
    rw [erase, eraseNode, lhsOf_eq hq1, hq2, hp2, splice_anon (hp.fresh_names hd), h4]
    simp [erase, eraseNode, splice, spliceNode]

/-- Every valid derivation is that of a way. -/
theorem way_exists (hp : Placed pg g D) (hyg : ∀ n, UsedIn n pg → ¬ ∃ r, D n r) (hne : ∀ as, PartOf (.alts as) pg → as ≠ [])
    {ts' ks} (h : VF (ParseGrammar.newUnchecked g) ts' ks) :
    ∀ {ts}, LowTs D ts ts' → (∀ t ∈ ts, PartOf (.term t) pg) → ∃ ws ns, IsWay pg ts ws ns ∧ wayForest g ts' ws = ks := by
  induction h with
  | nil =>
    intro ts hl _
    cases ts with
    | nil => exact ⟨[], [], .nil, by simp [wayForest]⟩
    | cons t ts => simp only [LowTs] at hl; obtain ⟨_, _, h, _⟩ := hl; cases h
  | leaf _ ih =>
    intro ts hl hpt
    cases ts with
    | nil => simp only [LowTs] at hl; cases hl
    | cons t ts =>
      simp only [LowTs] at hl
      obtain ⟨t', ts', he, hl, hls⟩ := hl
      injection he with he1 he2
      subst he1 he2
      obtain ⟨ws, ns, h1, h2⟩ := ih hls fun t h => hpt t (List.mem_cons_of_mem _ h)
      cases t with
      | simple t =>
        simp only [LowT] at hl; subst hl
        exact ⟨.leaf :: ws, _, .terminal h1, by simp [wayForest, wayNode, h2]⟩
      | group as => simp only [LowT] at hl; obtain ⟨_, _, h, _⟩ := hl; cases h
      | optional as => simp only [LowT] at hl; obtain ⟨_, _, h, _⟩ := hl; cases h
  | @node pid q n kids us ks hq hql hv _ ih1 ih2 =>
    intro ts hl hpt
    cases ts with
    | nil => simp only [LowTs] at hl; cases hl
    | cons t ts =>
      simp only [LowTs] at hl
      obtain ⟨t', ts', he, hl, hls⟩ := hl
      injection he with he1 he2
      subst he1 he2
      obtain ⟨ws, ns, h1, h2⟩ := ih2 hls fun t h => hpt t (List.mem_cons_of_mem _ h)
      obtain ⟨i, j, p', hi, hj, hpl, rfl⟩ := flat_alt' hq
      rw [hql] at hpl
      have hpt0 := hpt t (List.mem_cons_self ..)
      cases t with
      | simple t =>
        simp only [LowT] at hl; subst hl
        obtain ⟨p, hp1, hp2, hp3⟩ := hp.user' _ _ _ hi hpl (hyg _ hpt0)
        obtain ⟨e, he1, he2⟩ := lowA_get' hp3 hj
        have hpp := List.mem_of_getElem? hp1
        obtain ⟨ws', ns', h3, h4⟩ := ih1 he2 fun t ht => ⟨p, hpp, .alts (List.mem_of_getElem? he1) (.terms ht .refl)⟩
        subst hp2
        exact ⟨.node i j ws' :: ws, _, .nonterminal hp1 he1 h3 h1, by
          simp [wayForest, wayNode, altTerms_eq hi hj, h4, h2]⟩
      | group as =>
        simp only [LowT] at hl
        obtain ⟨x, rhs, h, hd, hl⟩ := hl
        injection h with h
        subst h
        have hii := hp.anon' _ _ _ _ hd hi hpl
        have hia := hp.anon _ _ hd
        rw [← hii, hi] at hia
        injection hia with hia
        have hpa : PartOf (.alts as) pg := partOf_trans (.group .refl) hpt0
        have hrne : rhs ≠ [] := by
          intro h0
          have := lowA_length hl
          rw [h0] at this
          exact hne as hpa (List.length_eq_zero_iff.mp this.symm)
        rw [if_neg (by simpa using hrne)] at hia
        have hj' : rhs[j]? = some q.rhs := by rw [← hj, hia]
        obtain ⟨e, he1, he2⟩ := lowA_get' hl hj'
        obtain ⟨ws', ns', h3, h4⟩ := ih1 he2 fun t ht => partOf_trans (.alts (List.mem_of_getElem? he1) (.terms ht .refl)) hpa
        exact ⟨.chosen j ws' :: ws, _, .group he1 h3 h1, by
          simp [wayForest, wayNode, ← hii, altTerms_eq hi hj, h4, h2]⟩
      | optional as =>
        simp only [LowT] at hl
        obtain ⟨x, rhs, h, hd, hl⟩ := hl
        injection h with h
        subst h
        have hii := hp.anon' _ _ _ _ hd hi hpl
        have hia := hp.anon _ _ hd
        rw [← hii, hi] at hia
        injection hia with hia
        have hpa : PartOf (.alts as) pg := partOf_trans (.optional .refl) hpt0
        have hj' : (rhs ++ [emptyAlt])[j]? = some q.rhs := by rw [← hj, hia]
        by_cases hjr : j < rhs.length
        · rw [List.getElem?_append_left hjr] at hj'
          obtain ⟨e, he1, he2⟩ := lowA_get' hl hj'
          obtain ⟨ws', ns', h3, h4⟩ := ih1 he2 fun t ht => partOf_trans (.alts (List.mem_of_getElem? he1) (.terms ht .refl)) hpa
          exact ⟨.chosen j ws' :: ws, _, .present he1 h3 h1, by
            simp [wayForest, wayNode, ← hii, altTerms_eq hi hj, h4, h2]⟩
        · have hjl : j = rhs.length := by
            have := (List.getElem?_eq_some_iff.mp hj').1
            simp at this
            omega
          subst hjl
          simp only [List.getElem?_concat_length, Option.some.injEq] at hj'
          obtain ⟨h0, _⟩ := hp.omit hd hl
          refine ⟨.absent :: ws, _, .absent h1, ?_⟩
          rw [← hii] at h0
          simp only [wayForest, wayNode, h2, ← hii, h0, lowA_length hl]
          rw [← hj'] at hv
          simp only [emptyAlt] at hv
          cases hv with
          | leaf hv => cases hv; rfl

/-- Different ways have different derivations. -/
theorem way_inj (hp : Placed pg g D) {ts ws ns} (h : IsWay pg ts ws ns) : ∀ {ts' ws2 ns2}, LowTs D ts ts' → IsWay pg ts ws2 ns2 →
    wayForest g ts' ws = wayForest g ts' ws2 → ws = ws2 := by
  induction h with
  | nil => intro ts' ws2 ns2 _ h2 _; cases h2; rfl
  | terminal _ ih =>
    intro ts' ws2 ns2 hl h2 he
    simp only [LowTs] at hl
    obtain ⟨t', us, rfl, hl, hls⟩ := hl
    cases h2 with
    | terminal h2 =>
      simp only [wayForest, List.cons.injEq] at he
      rw [ih hls h2 he.2]
  | @nonterminal i j p e kids ks ts ws ns hi hj _ _ ih1 ih2 =>
    intro ts' ws2 ns2 hl h2 he
    simp only [LowTs] at hl
    obtain ⟨t', us, rfl, hl, hls⟩ := hl
    simp only [LowT] at hl; subst hl
    generalize hgl : p.lhs = l at h2 he
    cases h2 with
    | @nonterminal i' j' p2 e2 kids2 ks2 _ ws2 ns2 hi2 hj2 h3 h4 =>
      obtain ⟨p', hp1, hp2, hp3⟩ := hp.user _ _ hi
      obtain ⟨e', he1, he2⟩ := lowA_get hp3 hj
      obtain ⟨p2', hp12, hp22, hp32⟩ := hp.user _ _ hi2
      obtain ⟨e2', he12, he22⟩ := lowA_get hp32 hj2
      simp only [wayForest, wayNode, List.cons.injEq, DNode.node.injEq] at he
      obtain ⟨rfl, rfl⟩ := altId_inj hp1 he1 hp12 he12 he.1.1
      rw [hi] at hi2; injection hi2 with hi2; subst hi2
      rw [hj] at hj2; injection hj2 with hj2; subst hj2
      rw [altTerms_eq hp1 he1] at he
      rw [ih1 he2 h3 he.1.2, ih2 hls h4 he.2]
  | @group j as e kids ks ts ws ns hj _ _ ih1 ih2 =>
    intro ts' ws2 ns2 hl h2 he
    simp only [LowTs] at hl
    obtain ⟨t', us, rfl, hl, hls⟩ := hl
    simp only [LowT] at hl
    obtain ⟨x, rhs, rfl, hd, hl⟩ := hl
    cases h2 with
    | @group j' _ e2 kids2 ks2 _ ws2 ns2 hj2 h3 h4 =>
      obtain ⟨p', e', hp1, hp2, he1, he2⟩ := hp.group hd hl hj
      obtain ⟨p2', e2', hp12, hp22, he12, he22⟩ := hp.group hd hl hj2
      simp only [wayForest, wayNode, List.cons.injEq, DNode.node.injEq] at he
      obtain ⟨_, rfl⟩ := altId_inj hp1 he1 hp12 he12 he.1.1
      rw [hj] at hj2; injection hj2 with hj2; subst hj2
      rw [altTerms_eq hp1 he1] at he
      rw [ih1 he2 h3 he.1.2, ih2 hls h4 he.2]
  | @present j as e kids ks ts ws ns hj _ _ ih1 ih2 =>
    intro ts' ws2 ns2 hl h2 he
    simp only [LowTs] at hl
    obtain ⟨t', us, rfl, hl, hls⟩ := hl
    simp only [LowT] at hl
    obtain ⟨x, rhs, rfl, hd, hl⟩ := hl
    cases h2 with
    | @present j' _ e2 kids2 ks2 _ ws2 ns2 hj2 h3 h4 =>
      obtain ⟨p', e', hp1, hp2, he1, he2⟩ := hp.optional hd hl hj
      obtain ⟨p2', e2', hp12, hp22, he12, he22⟩ := hp.optional hd hl hj2
      simp only [wayForest, wayNode, List.cons.injEq, DNode.node.injEq] at he
      obtain ⟨_, rfl⟩ := altId_inj hp1 he1 hp12 he12 he.1.1
      rw [hj] at hj2; injection hj2 with hj2; subst hj2
      rw [altTerms_eq hp1 he1] at he
      rw [ih1 he2 h3 he.1.2, ih2 hls h4 he.2]
    | absent h3 =>
      exfalso
      obtain ⟨p', e', hp1, hp2, he1, he2⟩ := hp.optional hd hl hj
      obtain ⟨h0, p2', hp12, hp22, he12⟩ := hp.omit hd hl
      simp only [wayForest, wayNode, List.cons.injEq, DNode.node.injEq] at he
      rw [h0] at he
      obtain ⟨_, rfl⟩ := altId_inj hp1 he1 hp12 he12 he.1.1
      simp at hj
  | @absent as ts ws ns _ ih =>
    intro ts' ws2 ns2 hl h2 he
    simp only [LowTs] at hl
    obtain ⟨t', us, rfl, hl, hls⟩ := hl
    simp only [LowT] at hl
    obtain ⟨x, rhs, rfl, hd, hl⟩ := hl
    cases h2 with
    | @present j' _ e2 kids2 ks2 _ ws2 ns2 hj2 h3 h4 =>
      exfalso
      obtain ⟨p', e', hp1, hp2, he1, he2⟩ := hp.optional hd hl hj2
      obtain ⟨h0, p2', hp12, hp22, he12⟩ := hp.omit hd hl
      simp only [wayForest, wayNode, List.cons.injEq, DNode.node.injEq] at he
      rw [h0] at he
      obtain ⟨_, rfl⟩ := altId_inj hp12 he12 hp1 he1 he.1.1
      simp at hj2
    | absent h3 =>
      simp only [wayForest, List.cons.injEq] at he
      rw [ih hls h3 he.2]

theorem Placed.hygienic (hp : Placed pg g D) (hyg : ∀ n, UsedIn n pg → DeclaredIn n pg ∨ ∀ k, n ≠ anonName k) :
    ∀ n, UsedIn n pg → ¬ ∃ r, D n r := by
  rintro n hu ⟨r, hr⟩
  rcases hyg n hu with h | h
  · exact hp.fresh _ _ hr h
  · obtain ⟨k, hk⟩ := hp.name _ _ hr
    exact h k hk

/-! ## Drawn trees and annotated derivations -/

theorem vf_root {pg : ParseGrammar} {n : Str} {ks} (h : VF pg [.nonterminal n] ks) : ∃ pid p kids, ks = [.node pid kids] ∧
    pg.productions[pid]? = some p ∧ p.lhs = .nonterminal n ∧ VF pg p.rhs.terms kids := by
  cases h with
  | node h1 h2 h3 h4 => cases h4; exact ⟨_, _, _, rfl, h1, h2, h3⟩

/-- Annotated derivations of returned entries differ, are valid and spell the input. -/
theorem anns_ok {g : Grammar} {input : Str} {n : Str} {st : PState} (hi : Inv (ParseGrammar.newUnchecked g) input (.nonterminal n) st)
    {ems ds} (hds : List.Forall₂ (Ann st) ems ds) (hn : ems.Nodup)
    (hfull : ∀ id ∈ ems, Full (ParseGrammar.newUnchecked g) input (.nonterminal n) st id) :
    ds.Nodup ∧ ∀ d ∈ ds, VF (ParseGrammar.newUnchecked g) [.nonterminal n] [d] := by
  refine ⟨anns_nodup hi hds hn hfull, ?_⟩
  intro d hd
  obtain ⟨id, hid, tr, ks, h1, h2, rfl⟩ := forall₂_mem_right hds hd
  obtain ⟨x, p, hx, hu, hp, hl, _⟩ := hfull id hid
  rw [h1] at hx; injection hx with hx; subst hx
  obtain ⟨ks', done, r, p', hd', hp', hts, hv, _⟩ := hi.s.sem id tr h1
  have := h2.fun hd'; subst this
  rw [hp] at hp'; injection hp' with hp'; subst hp'
  rw [hu, List.append_nil] at hts
  exact .node hp hl (by rw [hts]; exact hv) .nil

/-- `ds` are the annotated derivations of the drawn trees `ts`. -/
structure AnnsOf (g : Grammar) (n : Str) (ts : List ParseTree) (ds : List DNode) : Prop where
  nodup : ds.Nodup
  trees : ts.map asNode = ds.map (eraseNode (ParseGrammar.newUnchecked g))
  valid : ∀ d ∈ ds, VF (ParseGrammar.newUnchecked g) [.nonterminal n] [d]

/-- The drawn trees, annotated, among them eventually any given ones. -/
theorem draws_anns {g : Grammar} {input : Str} {n : Str} {it0 it ts0} (hi0 : ItInv g (.nonterminal n) input it0)
    (h0 : ∀ k, ¬ Popped it0.st k) (hd0 : Draws it0 ts0 it) {xs : List DNode}
    (hx : ∀ d ∈ xs, VF (ParseGrammar.newUnchecked g) [.nonterminal n] [d] ∧ dnodeYield d = input) :
    ∃ ts it' ds, Draws it ts it' ∧ AnnsOf g n (ts0 ++ ts) ds ∧ ∀ d ∈ xs, d ∈ ds := by
  obtain ⟨ems0, hr0, hi, hf0, _⟩ := hd0.rounds hi0
  have hx' : ∀ d ∈ xs, ∃ pid p ks, d = .node pid ks ∧ (ParseGrammar.newUnchecked g).productions[pid]? = some p ∧
      p.lhs = .nonterminal n ∧ VF (ParseGrammar.newUnchecked g) p.rhs.terms ks ∧ dyield ks = input := by
    intro d hd
    obtain ⟨h1, h2⟩ := hx d hd
    obtain ⟨pid, p, kids, h3, h4, h5, h6⟩ := vf_root h1
    injection h3 with h3
    subst h3
    exact ⟨pid, p, kids, rfl, h4, h5, h6, by simpa [dnodeYield] using h2⟩
  obtain ⟨ems, st', hr, hall⟩ := eventually_anns hx' hi.inv
  obtain ⟨ts, it', hd, hr', hi', hf⟩ := Rounds.draws hi hr
  obtain ⟨hinv, _, hnd, hm⟩ := (hr0.trans hr).inv (PGOk.newUnchecked g) hi0.inv
  have hlx := (hr.inv (PGOk.newUnchecked g) hi.inv).2.1
  have hl2 := (hr'.inv (PGOk.newUnchecked g) hi'.inv).2.1
  obtain ⟨ds, hds, he⟩ := forall₂_ann (forall₂_append (forall₂_imp hf0 fun _ _ h => h.later hlx)
    (forall₂_imp hf fun _ _ h => h.later hl2))
  obtain ⟨hn, hv⟩ := anns_ok hinv hds hnd fun id hid => ((hm id).mp hid).2.2
  refine ⟨ts, it', ds, hd, ⟨hn, he, hv⟩, ?_⟩
  intro d hdm
  obtain ⟨id, hpop, hfull, ha⟩ := hall d hdm
  obtain ⟨d', hd', ha'⟩ := forall₂_mem_left hds ((hm id).mpr ⟨hpop, h0 id, hfull⟩)
  have := ha.fun ha'; subst this
  exact hd'

/-- The trees drawn so far, annotated. -/
theorem draws_anns_now {g : Grammar} {input : Str} {n : Str} {it ts it'} (hi : ItInv g (.nonterminal n) input it) (h : Draws it ts it') :
    ∃ ds, AnnsOf g n ts ds := by
  obtain ⟨ems, hr, hi', hf, _⟩ := h.rounds hi
  obtain ⟨_, _, hnd, hm⟩ := hr.inv (PGOk.newUnchecked g) hi.inv
  obtain ⟨ds, hds, he⟩ := forall₂_ann hf
  obtain ⟨hn, hv⟩ := anns_ok hi'.inv hds hnd fun id hid => ((hm id).mp hid).2.2
  exact ⟨ds, hn, he, hv⟩

/-! ## Drawn trees and ways -/

theorem root_way (hp : Placed pg g D) (hyg : ∀ n, UsedIn n pg → ¬ ∃ r, D n r) (hne : ∀ as, PartOf (.alts as) pg → as ≠ [])
    {n} (hd : DeclaredIn n pg) {d} (hv : VF (ParseGrammar.newUnchecked g) [.nonterminal n] [d]) :
    ∃ xs ns, IsWay pg [.simple (.nonterminal n)] xs ns ∧ wayForest g [.nonterminal n] xs = [d] := by
  obtain ⟨pid, q, kids, h1, h2, h3, h4⟩ := vf_root hv
  injection h1 with h1
  subst h1
  obtain ⟨i, j, p', hi, hj, hpl, rfl⟩ := flat_alt' h2
  obtain ⟨p, hp1, hp2, hp3⟩ := hp.user' _ _ _ hi (hpl.trans h3) (fun ⟨r, h⟩ => hp.fresh _ _ h hd)
  obtain ⟨e, he1, he2⟩ := lowA_get' hp3 hj
  obtain ⟨ws, ns, h5, h6⟩ := way_exists hp hyg hne h4 he2
    fun t ht => ⟨p, List.mem_of_getElem? hp1, .alts (List.mem_of_getElem? he1) (.terms ht .refl)⟩
  subst hp2
  exact ⟨[.node i j ws], _, .nonterminal hp1 he1 h5 .nil, by simp [wayForest, wayNode, altTerms_eq hi hj, h6]⟩

theorem isWay_length {ts ws ns} (h : IsWay pg ts ws ns) : ws.length = ts.length := by
  induction h <;> simp_all

theorem ways_of_anns (hp : Placed pg g D) (hyg : ∀ n, UsedIn n pg → ¬ ∃ r, D n r) (hne : ∀ as, PartOf (.alts as) pg → as ≠ [])
    {n} (hd : DeclaredIn n pg) {ds} : ∀ {ts}, ts.map asNode = ds.map (eraseNode (ParseGrammar.newUnchecked g)) →
    (∀ d ∈ ds, VF (ParseGrammar.newUnchecked g) [.nonterminal n] [d]) →
    ∃ ws, ds = ws.map (wayNode g (.nonterminal n)) ∧ List.Forall₂ (WayOf pg n) ws ts := by
  induction ds with
  | nil =>
    intro ts he _
    cases ts with
    | nil => exact ⟨[], rfl, .nil⟩
    | cons => simp at he
  | cons d ds ih =>
    intro ts he hv
    cases ts with
    | nil => simp at he
    | cons t ts =>
      simp only [List.map_cons, List.cons.injEq] at he
      obtain ⟨ws, h1, h2⟩ := ih he.2 fun d h => hv d (List.mem_cons_of_mem _ h)
      have hvd := hv d (List.mem_cons_self ..)
      have hl : LowTs D [.simple (.nonterminal n)] [.nonterminal n] := ⟨_, _, rfl, rfl, rfl⟩
      obtain ⟨xs, ns, h3, h4⟩ := root_way hp hyg hne hd hvd
      have hlen := isWay_length h3
      match xs, hlen with
      | [x], _ =>
      obtain ⟨_, h6⟩ := way_valid hp h3 hl
      rw [h4] at h6
      simp only [wayForest, List.cons.injEq, and_true] at h4
      refine ⟨x :: ws, by rw [List.map_cons, h4, h1], .cons ?_ h2⟩
      unfold WayOf
      rw [erase, erase, ← he.1, asNode] at h6
      obtain ⟨pid, p, kids, h7, h8, h9, _⟩ := vf_root hvd
      injection h7 with h7
      have hlhs : t.lhs = .nonterminal n := by
        have := he.1
        rw [h7, eraseNode, lhsOf_eq h8, h9, asNode] at this
        injection this
      rw [hlhs, splice_user (mem_names.mpr hd), splice] at h6
      rw [h6]
      exact h3

theorem wayNode_inj (hp : Placed pg g D) {n x y ns ns'} (hx : IsWay pg [.simple (.nonterminal n)] [x] ns)
    (hy : IsWay pg [.simple (.nonterminal n)] [y] ns') (h : wayNode g (.nonterminal n) x = wayNode g (.nonterminal n) y) : x = y := by
  have := way_inj hp hx (ts' := [.nonterminal n]) ⟨_, _, rfl, rfl, rfl⟩ hy (by simp [wayForest, h])
  injection this

theorem nodup_of_map' {α β : Type} {f : α → β} {l : List α} (h : (l.map f).Nodup) : l.Nodup := h.of_map f

/-- A way of the text to derive the input. -/
theorem way_ann (hp : Placed pg g D) {n : Str} {input x kids} (hx : IsWay pg [.simple (.nonterminal n)] [x] [.nonterminal (.nonterminal n) kids])
    (hy : yield kids = input) :
    VF (ParseGrammar.newUnchecked g) [.nonterminal n] [wayNode g (.nonterminal n) x] ∧ dnodeYield (wayNode g (.nonterminal n) x) = input := by
  obtain ⟨h1, h2⟩ := way_valid hp hx (ts' := [.nonterminal n]) ⟨_, _, rfl, rfl, rfl⟩
  simp only [wayForest] at h1 h2
  refine ⟨h1, ?_⟩
  have h3 := congrArg yield h2
  rw [yield_splice, yield_erase] at h3
  simpa [dyield, yield, nodeYield, hy] using h3

section
variable (hn : normalizeParsedGrammar pg = some g) (hne : ∀ as, PartOf (.alts as) pg → as ≠ [])
  (hyg : ∀ n, UsedIn n pg → DeclaredIn n pg ∨ ∀ k, n ≠ anonName k) {n : Str} (hd : DeclaredIn n pg)
  {input : Str} {it it' : ParseTreeIter} {ts : List ParseTree}
include hn hne hyg hd

theorem draws_ways_now (ho : Opened g (.nonterminal n) input it) (hd0 : Draws it ts it') :
    ∃ ws : List Choices, ws.Nodup ∧ List.Forall₂ (WayOf pg n) ws ts := by
  obtain ⟨D, hp⟩ := normalize_placed hn
  obtain ⟨ds, h1, h2, h3⟩ := draws_anns_now ho.inv.1 hd0
  obtain ⟨ws, h4, h5⟩ := ways_of_anns hp (hp.hygienic hyg) hne hd h2 h3
  rw [h4] at h1
  exact ⟨ws, nodup_of_map' h1, h5⟩

theorem draws_ways (ho : Opened g (.nonterminal n) input it) (hd0 : Draws it ts it') {xs : List Choices}
    (hx : ∀ x ∈ xs, ∃ kids, IsWay pg [.simple (.nonterminal n)] [x] [.nonterminal (.nonterminal n) kids] ∧ yield kids = input) :
    ∃ more it'' ws, Draws it' more it'' ∧ ws.Nodup ∧ List.Forall₂ (WayOf pg n) ws (ts ++ more) ∧ ∀ x ∈ xs, x ∈ ws := by
  obtain ⟨D, hp⟩ := normalize_placed hn
  obtain ⟨more, it'', ds, h0, ⟨h1, h2, h3⟩, h6⟩ := draws_anns ho.inv.1 ho.inv.2 hd0 (xs := xs.map (wayNode g (.nonterminal n))) (by
    intro d hd'
    obtain ⟨x, hx1, rfl⟩ := List.mem_map.mp hd'
    obtain ⟨kids, hx2, hx3⟩ := hx x hx1
    exact way_ann hp hx2 hx3)
  obtain ⟨ws, h4, h5⟩ := ways_of_anns hp (hp.hygienic hyg) hne hd h2 h3
  rw [h4] at h1 h6
  refine ⟨more, it'', ws, h0, nodup_of_map' h1, h5, ?_⟩
  intro x hxm
  obtain ⟨y, hy1, hy2⟩ := List.mem_map.mp (h6 _ (List.mem_map.mpr ⟨x, hxm, rfl⟩))
  obtain ⟨t, _, ht⟩ := forall₂_mem_left h5 hy1
  obtain ⟨kids, hx2, _⟩ := hx x hxm
  rw [← wayNode_inj hp ht hx2 hy2]
  exact hy1

end

end Bnf
