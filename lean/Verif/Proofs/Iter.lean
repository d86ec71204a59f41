import Verif.Proofs.Forest
import Verif.Spec.Calls

/-! The parse tree iterator. -/

set_option autoImplicit false

namespace Bnf
open Spec

/-- Iterator states for the flat productions of `g`. -/
structure ItInv (g : Grammar) (S : Term) (input : Str) (it : ParseTreeIter) : Prop where
  pg : it.parser.parseGrammar = ParseGrammar.newUnchecked g
  inv : Inv (ParseGrammar.newUnchecked g) input S it.st

theorem earley_some {pg : ParseGrammar} {fuel : Nat} :
    ∀ {st : PState} {id : Nat} {st'}, earley pg fuel st = .returned (some id, st') → Rounds pg st [id] st' := by
  induction fuel with
  | zero => intro st id st' h; simp [earley] at h
  | succ fuel ih =>
    intro st id st' h
    unfold earley at h
    split at h
    · simp at h
    · rename_i x rest hq
      split at h
      · cases h
      · rename_i st1 hr
        simp at h
        obtain ⟨rfl, rfl⟩ := h
        exact .emit hq hr .refl
      · rename_i st1 hr
        exact .quiet hq hr (ih h)

theorem earley_none {pg : ParseGrammar} {fuel : Nat} :
    ∀ {st st' : PState}, earley pg fuel st = .returned (none, st') → Rounds pg st [] st' ∧ st'.queue.queue = [] := by
  induction fuel with
  | zero => intro st st' h; simp [earley] at h
  | succ fuel ih =>
    intro st st' h
    unfold earley at h
    split at h
    · rename_i hq
      simp at h
      subst h
      exact ⟨.refl, hq⟩
    · rename_i x rest hq
      split at h
      · cases h
      · simp at h
      · rename_i st1 hr
        obtain ⟨h1, h2⟩ := ih h
        exact ⟨.quiet hq hr h1, h2⟩

theorem earley_no_panic {pg input S} (hpg : PGOk pg) {fuel : Nat} :
    ∀ {st : PState}, Inv pg input S st → earley pg fuel st ≠ .panic := by
  induction fuel with
  | zero => intro st h hp; simp [earley] at hp
  | succ fuel ih =>
    intro st h hp
    unfold earley at hp
    split at hp
    · cases hp
    · rename_i x rest hq
      obtain ⟨st1, b, e, hi, _⟩ := h.round hpg hq
      simp only [PState.pop] at e
      rw [e] at hp
      cases b with
      | true => simp at hp
      | false => exact ih hi hp

theorem earley_of_rounds {pg : ParseGrammar} {st ems st'} (h : Rounds pg st ems st') :
    ∀ {id ems'}, ems = id :: ems' → ∃ fuel st1, earley pg fuel st = .returned (some id, st1) ∧ Rounds pg st1 ems' st' := by
  induction h with
  | refl => intro id ems' he; cases he
  | @quiet st x rest st1 ems st2 hq hr _ ih =>
    intro id ems' he
    obtain ⟨fuel, st3, h1, h2⟩ := ih he
    refine ⟨fuel + 1, st3, ?_, h2⟩
    unfold earley
    simp only [hq]
    simp only [PState.pop] at hr
    rw [hr]
    exact h1
  | @emit st x rest st1 ems st2 hq hr hrs _ =>
    intro id ems' he
    injection he with e1 e2
    subst e1 e2
    refine ⟨1, st1, ?_, hrs⟩
    unfold earley
    simp only [hq]
    simp only [PState.pop] at hr
    rw [hr]

theorem earley_none_of_rounds {pg : ParseGrammar} {st ems st'} (h : Rounds pg st ems st') (he : ems = [])
    (hq' : st'.queue.queue = []) : ∃ fuel, earley pg fuel st = .returned (none, st') := by
  induction h with
  | refl => exact ⟨1, by simp [earley, hq']⟩
  | @quiet st x rest st1 ems st2 hq hr _ ih =>
    obtain ⟨fuel, h1⟩ := ih he hq'
    refine ⟨fuel + 1, ?_⟩
    unfold earley
    simp only [hq]
    simp only [PState.pop] at hr
    rw [hr]
    exact h1
  | emit _ _ _ _ => cases he

theorem earley_mono {pg : ParseGrammar} {fuel : Nat} :
    ∀ {st : PState} {r}, earley pg fuel st = .returned r → ∀ fuel', fuel ≤ fuel' → earley pg fuel' st = .returned r := by
  induction fuel with
  | zero => intro st r h; simp [earley] at h
  | succ fuel ih =>
    intro st r h fuel' hf
    obtain ⟨f, rfl⟩ : ∃ f, fuel' = f + 1 := ⟨fuel' - 1, by omega⟩
    unfold earley at h ⊢
    split at h
    · exact h
    · rename_i x rest hq
      split at h
      · cases h
      · exact h
      · rename_i st1 hr
        exact ih h f (by omega)

theorem next_mono {it : ParseTreeIter} {fuel : Nat} {r} (h : it.next fuel = .returned r) (fuel' : Nat)
    (hf : fuel ≤ fuel') : it.next fuel' = .returned r := by
  unfold ParseTreeIter.next at h ⊢
  cases he : earley it.parser.parseGrammar fuel it.st with
  | outOfFuel => simp [he] at h
  | panic => simp [he] at h
  | returned x =>
    rw [earley_mono he fuel' hf]
    rw [he] at h
    exact h

theorem Spec.Next.det {it r r' it1 it2} (h : Next it r it1) (h' : Next it r' it2) : r = r' ∧ it1 = it2 := by
  obtain ⟨f, h⟩ := h
  obtain ⟨f', h'⟩ := h'
  have h1 := next_mono h (max f f') (by omega)
  have h2 := next_mono h' (max f f') (by omega)
  rw [h1] at h2
  simpa using h2

/-- Tree of an entry. -/
def TreeOf (g : Grammar) (st : PState) (id : Nat) (t : ParseTree) : Prop :=
  ∃ tr ks, st.tree.arena[id]? = some tr ∧ Den st.tree.arena id ks ∧
    t = ⟨lhsOf (ParseGrammar.newUnchecked g) tr.prodId, erase (ParseGrammar.newUnchecked g) ks⟩

theorem TreeOf.later {g st st' id t} (hl : Later st st') (h : TreeOf g st id t) : TreeOf g st' id t := by
  obtain ⟨tr, ks, h1, h2, h3⟩ := h
  exact ⟨tr, ks, hl.get h1, hl.den h2, h3⟩

theorem Spec.Next.some_rounds {g S input it t it'} (hi : ItInv g S input it) (h : Next it (some t) it') :
    ∃ id, Rounds (ParseGrammar.newUnchecked g) it.st [id] it'.st ∧ ItInv g S input it' ∧ TreeOf g it'.st id t ∧
      it'.parser = it.parser := by
  obtain ⟨fuel, h⟩ := h
  unfold ParseTreeIter.next at h
  rw [hi.pg] at h
  split at h
  · cases h
  · cases h
  · simp at h
  · rename_i id st he
    have hr := earley_some he
    obtain ⟨hinv, _, _, hm⟩ := hr.inv (PGOk.newUnchecked g) hi.inv
    have hid := (hm id).mp (by simp)
    obtain ⟨tr, p, h1, _⟩ := hid.2.2
    obtain ⟨ks, _, _, _, hd, _⟩ := hinv.s.sem id tr h1
    rw [parseTree_den hinv.s _ h1 hd (by have := hid.1.1; omega)] at h
    simp at h
    obtain ⟨rfl, rfl⟩ := h
    exact ⟨id, hr, ⟨hi.pg, hinv⟩, ⟨tr, ks, h1, hd, rfl⟩, rfl⟩

theorem Spec.Next.none_rounds {g S input it it'} (hi : ItInv g S input it) (h : Next it none it') :
    Rounds (ParseGrammar.newUnchecked g) it.st [] it'.st ∧ ItInv g S input it' ∧ it'.st.queue.queue = [] ∧
      it'.parser = it.parser := by
  obtain ⟨fuel, h⟩ := h
  unfold ParseTreeIter.next at h
  rw [hi.pg] at h
  split at h
  · cases h
  · cases h
  · rename_i st he
    simp at h
    subst h
    obtain ⟨hr, hq⟩ := earley_none he
    exact ⟨hr, ⟨hi.pg, (hr.inv (PGOk.newUnchecked g) hi.inv).1⟩, hq, rfl⟩
  · split at h
    · cases h
    · simp at h

theorem next_no_panic {g S input it} (hi : ItInv g S input it) (fuel : Nat) : it.next fuel ≠ .panic := by
  intro h
  unfold ParseTreeIter.next at h
  rw [hi.pg] at h
  split at h
  · cases h
  · rename_i he
    exact earley_no_panic (PGOk.newUnchecked g) hi.inv he
  · cases h
  · rename_i id st he
    have hr := earley_some he
    obtain ⟨hinv, _, _, hm⟩ := hr.inv (PGOk.newUnchecked g) hi.inv
    have hid := (hm id).mp (by simp)
    obtain ⟨tr, p, h1, _⟩ := hid.2.2
    obtain ⟨ks, _, _, _, hd, _⟩ := hinv.s.sem id tr h1
    rw [parseTree_den hinv.s _ h1 hd (by have := hid.1.1; omega)] at h
    simp at h

/-- Histories of successful calls correspond to rounds. -/
theorem Spec.Draws.rounds {g S input it ts it'} (h : Draws it ts it') (hi : ItInv g S input it) :
    ∃ ems, Rounds (ParseGrammar.newUnchecked g) it.st ems it'.st ∧ ItInv g S input it' ∧
      List.Forall₂ (TreeOf g it'.st) ems ts ∧ it'.parser = it.parser := by
  induction h with
  | nil => exact ⟨[], .refl, hi, .nil, rfl⟩
  | cons hn _ ih =>
    obtain ⟨id, hr, hi1, ht, hp1⟩ := Next.some_rounds hi hn
    obtain ⟨ems, hr2, hi2, hf, hp2⟩ := ih hi1
    have hl := (hr2.inv (PGOk.newUnchecked g) hi1.inv).2.1
    exact ⟨id :: ems, hr.trans hr2, hi2, .cons (ht.later hl) hf, by rw [hp2, hp1]⟩

theorem Spec.Draws.append {it ts it1 ts' it2} (h : Draws it ts it1) (h' : Draws it1 ts' it2) : Draws it (ts ++ ts') it2 := by
  induction h with
  | nil => exact h'
  | cons hn _ ih => exact .cons hn (ih h')

theorem Rounds.draws {g S input} {ems st'} : ∀ {it}, ItInv g S input it →
    Rounds (ParseGrammar.newUnchecked g) it.st ems st' →
    ∃ ts it', Draws it ts it' ∧ Rounds (ParseGrammar.newUnchecked g) it'.st [] st' ∧ ItInv g S input it' ∧
      List.Forall₂ (TreeOf g it'.st) ems ts := by
  induction ems with
  | nil => intro it hi hr; exact ⟨[], it, .nil, hr, hi, .nil⟩
  | cons id ems ih =>
    intro it hi hr
    obtain ⟨fuel, st1, he, hr1⟩ := earley_of_rounds hr rfl
    have hr0 := earley_some he
    obtain ⟨hinv, _, _, hm⟩ := hr0.inv (PGOk.newUnchecked g) hi.inv
    have hid := (hm id).mp (by simp)
    obtain ⟨tr, p, h1, _⟩ := hid.2.2
    obtain ⟨ks, _, _, _, hd, _⟩ := hinv.s.sem id tr h1
    have hn : Next it (some ⟨lhsOf (ParseGrammar.newUnchecked g) tr.prodId, erase (ParseGrammar.newUnchecked g) ks⟩)
        { it with st := st1 } := by
      refine ⟨fuel, ?_⟩
      unfold ParseTreeIter.next
      rw [hi.pg, he]
      simp only
      rw [parseTree_den hinv.s _ h1 hd (by have := hid.1.1; omega)]
    have hi1 : ItInv g S input { it with st := st1 } := ⟨hi.pg, hinv⟩
    obtain ⟨ts, it', hd', hr', hi', hf⟩ := ih hi1 hr1
    have hl := ((hd'.rounds hi1).choose_spec.1.inv (PGOk.newUnchecked g) hinv).2.1
    exact ⟨_ :: ts, it', .cons hn hd', hr', hi', .cons (TreeOf.later hl ⟨tr, ks, h1, hd, rfl⟩) hf⟩

/-- The fresh iterator. -/
theorem new_inv {g : Grammar} {p : GrammarParser} (hp : p.parseGrammar = ParseGrammar.newUnchecked g)
    (input : Str) (S : Term) : ∃ it, ParseTreeIter.new p input (some S) = some it ∧ ItInv g S input it ∧
      (∀ k, ¬ Popped it.st k) ∧ it.parser = p := by
  unfold ParseTreeIter.new
  simp only [hp, Option.getD_some, (PGOk.newUnchecked g).prodsFor]
  obtain ⟨h1, h2⟩ := Inv.init (PGOk.newUnchecked g) input S
  exact ⟨_, rfl, ⟨hp, h1⟩, h2, rfl⟩

theorem full_isParse {g S input} {st : PState} (h : Inv (ParseGrammar.newUnchecked g) input S st) {id t}
    (hf : Full (ParseGrammar.newUnchecked g) input S st id) (ht : TreeOf g st id t) : IsParse g S input t := by
  obtain ⟨tr, p, h1, hu, hp, hl, hst, hlen⟩ := hf
  obtain ⟨tr', ks, h1', hd, rfl⟩ := ht
  rw [h1] at h1'; injection h1' with h1'; subst h1'
  obtain ⟨ks', done, r, p', hd', hp', hts, hv, hfr, hl'⟩ := h.s.sem id tr h1
  have := hd.fun hd'; subst this
  rw [hp] at hp'; injection hp' with hp'; subst hp'
  rw [hu, List.append_nil] at hts
  refine ⟨by simp [lhsOf_eq hp, hl], ⟨p.rhs, ?_, ?_⟩, ?_⟩
  · simp only [lhsOf_eq hp]; exact prod_hasAlt hp
  · rw [hts]; exact hv.forest
  · rw [yield_erase]
    rw [hst, getFrom_zero] at hfr
    injection hfr with hfr
    rw [hlen, hfr, byteLen_append] at hl'
    have : r = [] := byteLen_eq_zero (by omega)
    rw [hfr, this, List.append_nil]

theorem forall₂_mem_right {α β : Type} {R : α → β → Prop} {l l'} (h : List.Forall₂ R l l') {b : β} (hb : b ∈ l') :
    ∃ a ∈ l, R a b := by
  induction h with
  | nil => simp at hb
  | cons hab _ ih =>
    rcases List.mem_cons.mp hb with rfl | hb
    · exact ⟨_, by simp, hab⟩
    · obtain ⟨a, ha, hr⟩ := ih hb; exact ⟨a, by simp [ha], hr⟩

theorem forall₂_mem_left {α β : Type} {R : α → β → Prop} {l l'} (h : List.Forall₂ R l l') {a : α} (ha : a ∈ l) :
    ∃ b ∈ l', R a b := by
  induction h with
  | nil => simp at ha
  | cons hab _ ih =>
    rcases List.mem_cons.mp ha with rfl | ha
    · exact ⟨_, by simp, hab⟩
    · obtain ⟨a, ha, hr⟩ := ih ha; exact ⟨a, by simp [ha], hr⟩

/-- Soundness from a fresh iterator (no entry popped yet). -/
theorem draws_sound {g S input it ts it'} (hi : ItInv g S input it) (h : Draws it ts it') :
    ∀ t ∈ ts, IsParse g S input t := by
  intro t ht
  obtain ⟨ems, hr, hi', hf, _⟩ := h.rounds hi
  obtain ⟨id, hid, hto⟩ := forall₂_mem_right hf ht
  have := ((hr.inv (PGOk.newUnchecked g) hi.inv).2.2.2 id).mp hid
  exact full_isParse hi'.inv this.2.2 hto

/-- Every parse tree is drawn eventually. -/
theorem draws_complete {g S input it0 it ts0} (hi0 : ItInv g S input it0) (h0 : ∀ k, ¬ Popped it0.st k)
    (hd0 : Draws it0 ts0 it) {t} (ht : IsParse g S input t) :
    ∃ ts it', Draws it ts it' ∧ t ∈ ts0 ++ ts := by
  obtain ⟨ems0, hr0, hi, hf0, _⟩ := hd0.rounds hi0
  obtain ⟨e, ha, hfo⟩ := ht.tree
  obtain ⟨ks, hv, he⟩ := forest_VF hfo
  obtain ⟨i, p, hp, hl, hrhs⟩ := hasAlt_prod ha
  obtain ⟨ems, st', id, tr, hr, hpop, hfull, hid, hpid, hden⟩ := eventually_full (PGOk.newUnchecked g) hi.inv hp
    (by rw [hl, ht.root]) (by rw [hrhs]; exact hv) (by rw [← yield_erase (ParseGrammar.newUnchecked g), he]; exact ht.spells)
  obtain ⟨ts, it', hd, hr', hi', hf⟩ := Rounds.draws hi hr
  refine ⟨ts, it', hd, ?_⟩
  have hto : TreeOf g st' id t := by
    refine ⟨tr, ks, hid, hden, ?_⟩
    rw [hpid, lhsOf_eq hp, hl, he]
  have hmem := ((hr0.trans hr).inv (PGOk.newUnchecked g) hi0.inv).2.2.2 id
  have := hmem.mpr ⟨hpop, h0 id, hfull⟩
  have hl2 := (hr'.inv (PGOk.newUnchecked g) hi'.inv).2.1
  have huniq : ∀ t', TreeOf g st' id t' → t' = t := by
    rintro t' ⟨tr', ks', h1, h2, h3⟩
    rw [hid] at h1; injection h1 with h1; subst h1
    have := h2.fun hden; subst this
    rw [h3, hpid, lhsOf_eq hp, hl, he]
  rcases List.mem_append.mp this with hm | hm
  · obtain ⟨t', ht', hto'⟩ := forall₂_mem_left hf0 hm
    have hlx := (hr.inv (PGOk.newUnchecked g) hi.inv).2.1
    rw [← huniq t' (hto'.later hlx)]
    exact List.mem_append_left _ ht'
  · obtain ⟨t', ht', hto'⟩ := forall₂_mem_left hf hm
    rw [← huniq t' (hto'.later hl2)]
    exact List.mem_append_right _ ht'

/-- Trees are drawn at most once when there are no duplicate alternatives. -/
theorem draws_nodup {g S input it ts it'} (hn : g.flatProds.Nodup) (hi : ItInv g S input it) (h : Draws it ts it') :
    ts.Nodup := by
  obtain ⟨ems, hr, hi', hf, _⟩ := h.rounds hi
  obtain ⟨_, _, hnd, hm⟩ := hr.inv (PGOk.newUnchecked g) hi.inv
  have key : ∀ id ∈ ems, ∀ id' ∈ ems, ∀ t, TreeOf g it'.st id t → TreeOf g it'.st id' t → id = id' := by
    intro id hid id' hid' t ht ht'
    obtain ⟨tr, p, h1, hu, hp, hl, hst, _⟩ := ((hm id).mp hid).2.2
    obtain ⟨tr', p', h1', hu', hp', hl', hst', _⟩ := ((hm id').mp hid').2.2
    obtain ⟨x, ks, hx, hd, rfl⟩ := ht
    rw [h1] at hx; injection hx with hx; subst hx
    obtain ⟨x, ks', hx, hd', heq⟩ := ht'
    rw [h1'] at hx; injection hx with hx; subst hx
    obtain ⟨_, done, r, q, d1, q1, t1, v1, _⟩ := hi'.inv.s.sem id tr h1
    obtain ⟨_, done', r', q', d1', q1', t1', v1', _⟩ := hi'.inv.s.sem id' tr' h1'
    have := hd.fun d1; subst this
    have := hd'.fun d1'; subst this
    rw [hp] at q1; injection q1 with q1; subst q1
    rw [hp'] at q1'; injection q1' with q1'; subst q1'
    rw [hu, List.append_nil] at t1
    rw [hu', List.append_nil] at t1'
    injection heq with _ heq
    obtain ⟨e1, e2⟩ := erase_inj hn v1 v1' heq
    subst e2
    have hpid : tr.prodId = tr'.prodId := by
      have g1 : g.flatProds[tr.prodId]? = some (p.lhs, p.rhs) := by
        rw [← newUnchecked_productions, List.getElem?_map, hp]; rfl
      have g2 : g.flatProds[tr'.prodId]? = some (p'.lhs, p'.rhs) := by
        rw [← newUnchecked_productions, List.getElem?_map, hp']; rfl
      have heq : (p.lhs, p.rhs) = (p'.lhs, p'.rhs) := by
        rw [hl, hl']
        have : p.rhs = p'.rhs := by
          rw [← t1, ← t1'] at e1
          cases hx : p.rhs; cases hy : p'.rhs; rw [hx, hy] at e1; simp at e1; rw [e1]
        rw [this]
      obtain ⟨l1, g1⟩ := List.getElem?_eq_some_iff.mp g1
      obtain ⟨l2, g2⟩ := List.getElem?_eq_some_iff.mp g2
      exact (List.Nodup.getElem_inj_iff hn).mp (by rw [g1, g2, heq])
    exact hi'.inv.s.den_inj hd hd' h1 h1' hpid (by rw [hst, hst'])
  clear hm hr hi h
  induction hf with
  | nil => exact List.nodup_nil
  | @cons id t ems ts ht hf ih =>
    have hnd' := List.nodup_cons.mp hnd
    refine List.nodup_cons.mpr ⟨?_, ih hnd'.2 (fun a ha b hb => key a (by simp [ha]) b (by simp [hb]))⟩
    intro hmem
    obtain ⟨id', hid', ht'⟩ := forall₂_mem_right hf hmem
    have := key id (by simp) id' (by simp [hid']) t ht ht'
    subst this
    exact hnd'.1 hid'

theorem rounds_empty {pg : ParseGrammar} {st ems st'} (h : Rounds pg st ems st') (hq : st.queue.queue = []) :
    ems = [] ∧ st' = st := by
  cases h with
  | refl => exact ⟨rfl, rfl⟩
  | quiet hq' _ _ => rw [hq] at hq'; cases hq'
  | emit hq' _ _ => rw [hq] at hq'; cases hq'

end Bnf
