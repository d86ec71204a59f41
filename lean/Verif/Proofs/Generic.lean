import Verif.Spec.Generic

set_option autoImplicit false

namespace Bnf.Generic

open Bnf.Spec.Generic

variable {σ ι ε α δ : Type} {parser : Parser σ ι ε α} {delimiter : Parser σ ι ε δ}

theorem listLoop_pair {a b : σ × ι} {o : α} (h : Pair parser delimiter a o b) (n : Nat) (acc : List α) :
    listLoop parser delimiter (n + 1) a.1 a.2 acc = listLoop parser delimiter n b.1 b.2 (acc ++ [o]) := by
  obtain ⟨s, j, d, h1, h2⟩ := h
  simp only [listLoop, h1, h2]

theorem listLoop_pairs {a b : σ × ι} {os : List α} (h : Pairs parser delimiter a os b) : ∀ (n : Nat) (acc : List α),
    listLoop parser delimiter (n + os.length) a.1 a.2 acc = listLoop parser delimiter n b.1 b.2 (acc ++ os) := by
  induction h with
  | none => intro n acc; simp
  | more h _ ih =>
    intro n acc
    rw [List.length_cons, ← Nat.add_assoc, listLoop_pair h, ih, List.append_assoc, List.singleton_append]

theorem ends_pair {a b : σ × ι} {o : α} (h : Pair parser delimiter a o b) : ∀ {r s}, Ends parser delimiter b r s →
    ∃ r', Ends parser delimiter a r' s ∧ ((∃ j os, r = .ok j os ∧ r' = .ok j (o :: os)) ∨ ((∀ j os, r ≠ .ok j os) ∧ r' = r)) := by
  intro r s h2
  cases h2 with
  | list hp h3 h4 => exact ⟨_, .list (.more h hp) h3 h4, .inl ⟨_, _, rfl, rfl⟩⟩
  | noItem hp h3 => exact ⟨_, .noItem (.more h hp) h3, .inr ⟨by simp, rfl⟩⟩
  | failure hp h3 => exact ⟨_, .failure (.more h hp) h3, .inr ⟨by simp, rfl⟩⟩
  | incomplete hp h3 => exact ⟨_, .incomplete (.more h hp) h3, .inr ⟨by simp, rfl⟩⟩
  | delimiterFailure hp h3 h4 => exact ⟨_, .delimiterFailure (.more h hp) h3 h4, .inr ⟨by simp, rfl⟩⟩
  | delimiterIncomplete hp h3 h4 => exact ⟨_, .delimiterIncomplete (.more h hp) h3 h4, .inr ⟨by simp, rfl⟩⟩

/-- The items read before are put in front of the list. -/
def withItems (acc : List α) : Outcome ι ε (List α) → Outcome ι ε (List α)
  | .ok j os => .ok j (acc ++ os)
  | .error e => .error e
  | .failure e => .failure e
  | .incomplete e => .incomplete e

theorem listLoop_sound : ∀ {n : Nat} {a : σ × ι} {acc r s}, listLoop parser delimiter n a.1 a.2 acc = some (r, s) →
    ∃ r', Ends parser delimiter a r' s ∧ r = withItems acc r'
  | 0, _, _, _, _, h => by simp [listLoop] at h
  | n + 1, a, acc, r, s, h => by
    rw [listLoop] at h
    split at h
    · rename_i j o s1 h1
      simp only at h
      split at h
      · rename_i k d s2 h2
        obtain ⟨r', h3, rfl⟩ := listLoop_sound (a := (s2, k)) h
        have hp : Pair parser delimiter a o (s2, k) := ⟨_, _, _, h1, h2⟩
        obtain ⟨r'', h4, h5⟩ := ends_pair hp h3
        refine ⟨r'', h4, ?_⟩
        rcases h5 with ⟨j', os, rfl, rfl⟩ | ⟨h5, rfl⟩
        · simp [withItems]
        · cases r'' with
          | ok j' os => exact absurd rfl (h5 j' os)
          | _ => rfl
      · rename_i h2
        cases h; exact ⟨_, .list (.none a) h1 h2, by simp [withItems]⟩
      · rename_i h2
        cases h; exact ⟨_, .delimiterFailure (.none a) h1 h2, rfl⟩
      · rename_i h2
        cases h; exact ⟨_, .delimiterIncomplete (.none a) h1 h2, rfl⟩
    · rename_i h1; cases h; exact ⟨_, .noItem (.none a) h1, rfl⟩
    · rename_i h1; cases h; exact ⟨_, .failure (.none a) h1, rfl⟩
    · rename_i h1; cases h; exact ⟨_, .incomplete (.none a) h1, rfl⟩

theorem list_sound {n : Nat} {a : σ × ι} {r s} (h : listWithSeparator parser delimiter n a.1 a.2 = some (r, s)) :
    Ends parser delimiter a r s := by
  obtain ⟨r', h1, rfl⟩ := listLoop_sound h
  cases r' <;> exact h1

theorem list_complete {a : σ × ι} {r s} (h : Ends parser delimiter a r s) :
    ∃ n, listWithSeparator parser delimiter n a.1 a.2 = some (r, s) := by
  cases h with
  | @list os _ _ _ _ _ _ hp h1 h2 | @delimiterFailure os _ _ _ _ _ _ hp h1 h2 | @delimiterIncomplete os _ _ _ _ _ _ hp h1 h2 =>
    exact ⟨1 + os.length, by rw [listWithSeparator, listLoop_pairs hp]; simp [listLoop, h1, h2]⟩
  | @noItem os _ _ _ hp h1 | @failure os _ _ _ hp h1 | @incomplete os _ _ _ hp h1 =>
    exact ⟨1 + os.length, by rw [listWithSeparator, listLoop_pairs hp]; simp [listLoop, h1]⟩

theorem listLoop_mono : ∀ {n : Nat} {st : σ} {i : ι} {acc r}, listLoop parser delimiter n st i acc = some r →
    ∀ m, n ≤ m → listLoop parser delimiter m st i acc = some r
  | 0, _, _, _, _, h, _, _ => by simp [listLoop] at h
  | n + 1, st, i, acc, r, h, 0, hm => by omega
  | n + 1, st, i, acc, r, h, m + 1, hm => by
    rw [listLoop] at h ⊢
    split at h
    · simp only at h ⊢
      split at h
      · exact listLoop_mono h m (by omega)
      all_goals exact h
    all_goals exact h

/-- If the first round does not end the list, it reads an item and a separator. -/
theorem pair_of_none {n : Nat} {a : σ × ι} {acc} (h : listLoop parser delimiter (n + 1) a.1 a.2 acc = none) :
    ∃ o b, Pair parser delimiter a o b ∧ listLoop parser delimiter n b.1 b.2 (acc ++ [o]) = none := by
  rw [listLoop] at h
  split at h
  · rename_i j o s1 h1
    simp only at h
    split at h
    · rename_i k d s2 h2
      exact ⟨o, (s2, k), ⟨_, _, _, h1, h2⟩, h⟩
    all_goals exact absurd h (by simp)
  all_goals exact absurd h (by simp)

theorem pair_unique {a : σ × ι} {o o' : α} {b b' : σ × ι} (h : Pair parser delimiter a o b) (h' : Pair parser delimiter a o' b') :
    o = o' ∧ b = b' := by
  obtain ⟨s, j, d, h1, h2⟩ := h
  obtain ⟨s', j', d', h1', h2'⟩ := h'
  rw [h1] at h1'
  cases h1'
  rw [h2] at h2'
  obtain ⟨b1, b2⟩ := b
  obtain ⟨c1, c2⟩ := b'
  cases h2'
  exact ⟨rfl, rfl⟩

theorem unending {a : σ × ι} (h : ∀ n, listWithSeparator parser delimiter n a.1 a.2 = none) :
    ∃ f : Nat → σ × ι, f 0 = a ∧ ∀ k, ∃ o, Pair parser delimiter (f k) o (f (k + 1)) := by
  classical
  let Bad (a : σ × ι) : Prop := ∃ acc, ∀ n, listLoop parser delimiter n a.1 a.2 acc = none
  have step : ∀ x : {a // Bad a}, ∃ y : {a // Bad a}, ∃ o, Pair parser delimiter x.1 o y.1 := by
    rintro ⟨a, acc, ha⟩
    obtain ⟨o, b, hp, _⟩ := pair_of_none (ha 1)
    refine ⟨⟨b, acc ++ [o], fun n => ?_⟩, o, hp⟩
    rw [← listLoop_pair hp]
    exact ha (n + 1)
  let next := fun x => Classical.choose (step x)
  have hnext : ∀ x, ∃ o, Pair parser delimiter x.1 o (next x).1 := fun x => Classical.choose_spec (step x)
  let f : Nat → {a // Bad a} := fun k => Nat.rec ⟨a, [], h⟩ (fun _ x => next x) k
  exact ⟨fun k => (f k).1, rfl, fun k => hnext (f k)⟩

theorem unending_none {f : Nat → σ × ι} (hf : ∀ k, ∃ o, Pair parser delimiter (f k) o (f (k + 1))) : ∀ (n k : Nat) (acc : List α),
    listLoop parser delimiter n (f k).1 (f k).2 acc = none
  | 0, _, _ => rfl
  | n + 1, k, acc => by
    obtain ⟨o, h⟩ := hf k
    rw [listLoop_pair h]
    exact unending_none hf n (k + 1) _

theorem list_measure (μ : σ × ι → Nat) (hμ : ∀ a o b, Pair parser delimiter a o b → μ b < μ a) : ∀ (n : Nat) (a : σ × ι) (acc : List α),
    μ a < n → ∃ r, listLoop parser delimiter n a.1 a.2 acc = some r
  | 0, _, _, h => by omega
  | n + 1, a, acc, h => by
    cases h1 : listLoop parser delimiter (n + 1) a.1 a.2 acc with
    | some r => exact ⟨r, rfl⟩
    | none =>
      obtain ⟨o, b, hp, h2⟩ := pair_of_none h1
      have hlt := hμ a o b hp
      obtain ⟨r, h3⟩ := list_measure μ hμ n b (acc ++ [o]) (by omega)
      rw [h2] at h3; cases h3

/-! ## The lists of the text parser -/

/-- A parser of `Model/Errors`, which has no state and no other errors. -/
def ofErr (p : E.P α) (hp : ∀ s, p s ≠ .fuel) : Parser Unit Str (Str × E.Kind) α := fun _ s =>
  (match h : p s with
    | .ok r v => .ok r v
    | .err i k => .error (i, k)
    | .fuel => absurd h (hp s), ())

/-- The result in terms of `Model/Errors`. -/
def toErr : Option (Outcome Str (Str × E.Kind) (List α) × Unit) → Option (E.Res (List α))
  | none => some .fuel
  | some (.ok r v, _) => some (.ok r v)
  | some (.error (i, k), _) => some (.err i k)
  | some (.failure _, _) => none
  | some (.incomplete _, _) => none

theorem xtLoop_eq {p : E.P α} {d : E.P δ} (hp : ∀ s, p s ≠ .fuel) (hd : ∀ s, d s ≠ .fuel) : ∀ (n : Nat) (s : Str) (acc : List α),
    toErr (listLoop (ofErr p hp) (ofErr d hd) n () s acc) = some (E.xtLoop p d n s acc)
  | 0, _, _ => rfl
  | n + 1, s, acc => by
    have hi : ∀ {β : Type} (q : E.P β) (hq : ∀ s, q s ≠ .fuel) (s : Str),
        (∃ r v, q s = .ok r v ∧ ofErr q hq () s = (.ok r v, ())) ∨ (∃ i k, q s = .err i k ∧ ofErr q hq () s = (.error (i, k), ())) := by
      intro β q hq s
      unfold ofErr
      split
      · rename_i r v h; exact .inl ⟨r, v, h, rfl⟩
      · rename_i i k h; exact .inr ⟨i, k, h, rfl⟩
      · rename_i h; exact absurd h (hq s)
    rcases hi p hp s with ⟨r, v, h1, h2⟩ | ⟨i, k, h1, h2⟩
    · rcases hi d hd r with ⟨r', v', h3, h4⟩ | ⟨i, k, h3, h4⟩
      · simp only [listLoop, h2, h4, E.xtLoop, h1, h3]
        exact xtLoop_eq hp hd n r' _
      · simp only [listLoop, h2, h4, E.xtLoop, h1, h3, toErr]
    · simp only [listLoop, h2, E.xtLoop, h1, toErr]

/-! ## Vectors -/

namespace AppendOnlyVec

theorem call_eq (v : AppendOnlyVec α) (c : Call α) :
    (v.call c).2 = ⟨v.vec ++ [added v.vec.length c]⟩ ∧
      (v.call c).1 = (match c with | .push _ => .id v.vec.length | .pushWithId b => .item (some (b v.vec.length))) := by
  cases c <;> simp [call, push, pushWithId, nextId, len, get, added]

theorem calls_length (v : AppendOnlyVec α) (cs : List (Call α)) : (v.calls cs).2.vec.length = v.vec.length + cs.length := by
  induction cs generalizing v with
  | nil => rfl
  | cons c cs ih =>
    show ((v.call c).2.calls cs).2.vec.length = _
    rw [ih, (call_eq v c).1]
    simp; omega

theorem calls_get (v : AppendOnlyVec α) (cs : List (Call α)) (k : Nat) :
    (v.calls cs).2.get k = if k < v.vec.length then v.get k else (cs[k - v.vec.length]?).map (added k) := by
  induction cs generalizing v with
  | nil =>
    show v.get k = _
    split
    · rfl
    · simp only [get, List.getElem?_nil, Option.map_none, List.getElem?_eq_none_iff]; omega
  | cons c cs ih =>
    show ((v.call c).2.calls cs).2.get k = _
    rw [ih, (call_eq v c).1]
    simp only [List.length_append, List.length_singleton, get]
    by_cases h : k < v.vec.length
    · rw [if_pos (by omega), if_pos h, List.getElem?_append_left h]
    · rw [if_neg h]
      by_cases h2 : k = v.vec.length
      · subst h2; simp
      · rw [if_neg (by omega)]
        have : k - v.vec.length = (k - (v.vec.length + 1)) + 1 := by omega
        rw [this, List.getElem?_cons_succ]

theorem calls_returned (v : AppendOnlyVec α) (cs : List (Call α)) (k : Nat) :
    (v.calls cs).1[k]? = (cs[k]?).map fun
      | .push _ => .id (v.vec.length + k)
      | .pushWithId b => .item (some (b (v.vec.length + k))) := by
  induction cs generalizing v k with
  | nil => rfl
  | cons c cs ih =>
    show ((v.call c).1 :: ((v.call c).2.calls cs).1)[k]? = _
    cases k with
    | zero =>
      simp only [List.getElem?_cons_zero, Option.map_some, Nat.add_zero]
      rw [(call_eq v c).2]
    | succ k =>
      rw [List.getElem?_cons_succ, List.getElem?_cons_succ, ih, (call_eq v c).1]
      have : (v.vec ++ [added v.vec.length c]).length + k = v.vec.length + (k + 1) := by simp; omega
      rw [this]

end AppendOnlyVec

end Bnf.Generic
