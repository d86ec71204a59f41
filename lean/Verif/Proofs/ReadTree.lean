import Verif.Proofs.EarleyRound

/-! Reading the parse tree off the traversal tree. -/

set_option autoImplicit false

namespace Bnf

/-- Left-hand side of a production id (`pid` is always valid where this is used). -/
def lhsOf (pg : ParseGrammar) (pid : Nat) : Term :=
  match pg.productions[pid]? with
  | some p => p.lhs
  | none => .terminal []

mutual
def eraseNode (pg : ParseGrammar) : DNode → ParseTreeNode
  | .leaf s => .terminal s
  | .node pid kids => .nonterminal (lhsOf pg pid) (erase pg kids)
def erase (pg : ParseGrammar) : List DNode → List ParseTreeNode
  | [] => []
  | d :: ds => eraseNode pg d :: erase pg ds
end

/-- Chain of edges from `r` down to the third argument. -/
inductive Chain (a : List Traversal) (r : Nat) : List TermMatch → Nat → Prop
  | refl : Chain a r [] r
  | snoc {ms par k t m} : Chain a r ms par → a[k]? = some t → t.src = some ⟨m, par⟩ → Chain a r (ms ++ [m]) k

theorem Chain.len {pg input S t q} (h : SInv pg input S t q) {r ms k} (hc : Chain t.arena r ms k) :
    r + ms.length ≤ k := by
  induction hc with
  | refl => simp
  | @snoc ms par k tr m _ hk hs ih =>
    have := ((h.entries k tr hk).link _ hs).1
    simp at this ⊢
    omega

theorem Chain.nil_eq {a : List Traversal} {r k} {ms : List TermMatch} (h : Chain a r ms k) (hn : ms = []) : r = k := by
  cases h with
  | refl => rfl
  | snoc _ _ _ => simp at hn

theorem forall₂_imp {α β : Type} {R R' : α → β → Prop} {l l'} (h : List.Forall₂ R l l')
    (hi : ∀ a b, R a b → R' a b) : List.Forall₂ R' l l' := by
  induction h with
  | nil => exact .nil
  | cons h _ ih => exact .cons (hi _ _ h) ih

theorem scanUp_chain {pg input S t q} (h : SInv pg input S t q) {cur ms last} (hc : Chain t.arena cur ms last)
    (hne : ms ≠ []) (fuel : Nat) (hf : last < fuel) :
    ∃ m ms' c1, ms = m :: ms' ∧ Chain t.arena c1 ms' last ∧ t.scanUp cur fuel last = some (some (m, c1)) := by
  induction hc generalizing fuel with
  | refl => exact absurd rfl hne
  | @snoc ms par k tr m hch hk hs ih =>
    cases fuel with
    | zero => omega
    | succ fuel =>
      have hlt := ((h.entries k tr hk).link _ hs).1
      simp only at hlt
      have hget : t.get k = some tr := hk
      unfold TravTree.scanUp
      simp only [hget, hs]
      split
      · rename_i heq
        subst heq
        have := hch.len h
        have hnil : ms = [] := List.eq_nil_of_length_eq_zero (by omega)
        subst hnil
        exact ⟨m, [], k, rfl, .refl, rfl⟩
      · rename_i hne'
        have hms : ms ≠ [] := by
          intro hnil
          exact hne' (hch.nil_eq hnil)
        obtain ⟨m', ms', c1, e, hch', hsc⟩ := ih hms fuel (by omega)
        exact ⟨m', ms' ++ [m], c1, by simp [e], .snoc hch' hk hs, hsc⟩

theorem collectMatches_chain {pg input S t q} (h : SInv pg input S t q) {ms : List TermMatch} :
    ∀ {cur last}, Chain t.arena cur ms last → last < t.arena.length → ∀ fuel, ms.length < fuel →
    t.collectMatches last fuel cur = some ms := by
  induction ms with
  | nil =>
    intro cur last hc _ fuel hf
    have : cur = last := hc.nil_eq rfl
    subst this
    cases fuel with
    | zero => omega
    | succ fuel => simp [TravTree.collectMatches]
  | cons m ms ih =>
    intro cur last hc hl fuel hf
    have hlen := hc.len h
    cases fuel with
    | zero => omega
    | succ fuel =>
      simp at hf hlen
      unfold TravTree.collectMatches
      rw [if_neg (by omega)]
      obtain ⟨m', ms', c1, e, hch, hsc⟩ := scanUp_chain h hc (by simp) (t.arena.length + 1) (by omega)
      injection e with e1 e2
      subst e1 e2
      simp only [hsc]
      rw [ih hch hl fuel hf]

theorem walkRoot_chain {pg input S t q} (h : SInv pg input S t q) {r ms k} (hc : Chain t.arena r ms k)
    {tr : Traversal} (hr : t.arena[r]? = some tr) (hs : tr.src = none) (fuel : Nat) (hf : k < fuel) :
    t.walkRoot fuel k = some r := by
  induction hc generalizing fuel with
  | refl =>
    cases fuel with
    | zero => omega
    | succ fuel =>
      have hget : t.get r = some tr := hr
      simp [TravTree.walkRoot, hget, hs]
  | @snoc ms par k tr' m hch hk hs' ih =>
    cases fuel with
    | zero => omega
    | succ fuel =>
      have hlt := ((h.entries k tr' hk).link _ hs').1
      simp only at hlt
      have hget : t.get k = some tr' := hk
      simp only [TravTree.walkRoot, hget, hs']
      exact ih fuel (by omega)

/-- A matched term and the derivation it stands for. -/
inductive MD (a : List Traversal) (k : Nat) : TermMatch → DNode → Prop
  | leaf {s} : MD a k (.terminal s) (.leaf s)
  | node {c tc kids} : c < k → a[c]? = some tc → Den a c kids → MD a k (.nonterminal c) (.node tc.prodId kids)

theorem MD.mono {a k k' m d} (h : MD a k m d) (hk : k ≤ k') : MD a k' m d := by
  cases h with
  | leaf => exact .leaf
  | node h1 h2 h3 => exact .node (by omega) h2 h3

theorem forall₂_snoc {α β : Type} {R : α → β → Prop} {l l' a b} (h : List.Forall₂ R l l') (hab : R a b) :
    List.Forall₂ R (l ++ [a]) (l' ++ [b]) := by
  induction h with
  | nil => exact .cons hab .nil
  | cons h _ ih => exact .cons h ih

theorem den_chain {pg input S t q} (h : SInv pg input S t q) {k ks} (hd : Den t.arena k ks) :
    ∃ r ms tr, Chain t.arena r ms k ∧ t.arena[r]? = some tr ∧ tr.src = none ∧
      List.Forall₂ (MD t.arena k) ms ks := by
  induction hd with
  | root hk hs => exact ⟨_, [], _, .refl, hk, hs, .nil⟩
  | @leaf k t' s par ks hk hs _ ih =>
    obtain ⟨r, ms, tr, hc, hr, hrs, hf⟩ := ih
    have hlt := ((h.entries k t' hk).link _ hs).1
    simp only at hlt
    exact ⟨r, ms ++ [.terminal s], tr, .snoc hc hk hs, hr, hrs,
      forall₂_snoc (forall₂_imp hf fun _ _ hx => hx.mono (by omega)) .leaf⟩
  | @node k t' c par ks tc kids hk hs _ hcc hdc ih _ =>
    obtain ⟨r, ms, tr, hc, hr, hrs, hf⟩ := ih
    obtain ⟨hlt, hb, _⟩ := (h.entries k t' hk).link _ hs
    simp only at hlt
    exact ⟨r, ms ++ [.nonterminal c], tr, .snoc hc hk hs, hr, hrs,
      forall₂_snoc (forall₂_imp hf fun _ _ hx => hx.mono (by omega)) (.node hb hcc hdc)⟩

theorem getMatched_den {pg input S t q} (h : SInv pg input S t q) {k ks} (hd : Den t.arena k ks) :
    ∃ ms, t.getMatched k = some ms ∧ List.Forall₂ (MD t.arena k) ms ks := by
  obtain ⟨r, ms, tr, hc, hr, hrs, hf⟩ := den_chain h hd
  have hk : k < t.arena.length := by
    cases hd with
    | root hk _ => exact (List.getElem?_eq_some_iff.mp hk).1
    | leaf hk _ _ => exact (List.getElem?_eq_some_iff.mp hk).1
    | node hk _ _ _ _ => exact (List.getElem?_eq_some_iff.mp hk).1
  have hl := hc.len h
  refine ⟨ms, ?_, hf⟩
  unfold TravTree.getMatched
  rw [walkRoot_chain h hc hr hrs _ (by omega)]
  exact collectMatches_chain h hc hk _ (by omega)

theorem mapM_forall₂ {α β γ : Type} {R : α → β → Prop} {f : α → Option γ} {g : β → γ} {l l'}
    (h : List.Forall₂ R l l') (hf : ∀ a b, R a b → f a = some (g b)) : l.mapM f = some (l'.map g) := by
  induction h with
  | nil => rfl
  | cons hab _ ih => rw [List.mapM_cons, hf _ _ hab, ih]; rfl

theorem erase_eq_map (pg : ParseGrammar) (ks : List DNode) : erase pg ks = ks.map (eraseNode pg) := by
  induction ks with
  | nil => rfl
  | cons d ds ih => simp [erase, ih]

/-- Reading back the tree of an entry gives its denotation. -/
theorem parseTree_den {pg input S t q} (h : SInv pg input S t q) (fuel : Nat) :
    ∀ {k ks tr}, t.arena[k]? = some tr → Den t.arena k ks → k < fuel →
    parseTree t pg fuel k = some ⟨lhsOf pg tr.prodId, erase pg ks⟩ := by
  induction fuel with
  | zero => intro k ks tr _ _ hlt; omega
  | succ fuel ih =>
    intro k ks tr hk hd hlt
    have hget : t.get k = some tr := hk
    obtain ⟨p, hp⟩ := (h.entries k tr hk).prod
    have hpid : pg.prodById tr.prodId = some p := hp
    obtain ⟨ms, hms, hf⟩ := getMatched_den h hd
    unfold parseTree
    simp only [hget, hpid, hms]
    rw [mapM_forall₂ (g := eraseNode pg) hf]
    · simp only [lhsOf, hp, erase_eq_map]
    · intro m d hmd
      cases hmd with
      | leaf => rfl
      | @node c tc kids hc htc hdc =>
        simp only
        rw [ih htc hdc (by omega)]
        simp [eraseNode]

end Bnf
