import Verif.Model.Nom
import Verif.Proofs.Basic

/-! # Lemmas on the nom combinators -/

set_option autoImplicit false

namespace Bnf
variable {α β γ : Type}

@[simp] theorem Res.andThen_ok {x : Res α} {f : Str → α → Res β} {r v} :
    x.andThen f = .ok r v ↔ ∃ r1 v1, x = .ok r1 v1 ∧ f r1 v1 = .ok r v := by
  cases x <;> simp [Res.andThen]

theorem Res.andThen_fuel {x : Res α} {f : Str → α → Res β} :
    x.andThen f = .fuel ↔ x = .fuel ∨ ∃ r1 v1, x = .ok r1 v1 ∧ f r1 v1 = .fuel := by
  cases x <;> simp [Res.andThen]

theorem Res.andThen_err {x : Res α} {f : Str → α → Res β} :
    x.andThen f = .err ↔ x = .err ∨ ∃ r1 v1, x = .ok r1 v1 ∧ f r1 v1 = .err := by
  cases x <;> simp [Res.andThen]

@[simp] theorem Res.andThen_of_ok {r : Str} {v : α} {f : Str → α → Res β} : (Res.ok r v).andThen f = f r v := rfl
@[simp] theorem Res.andThen_of_err {f : Str → α → Res β} : (Res.err : Res α).andThen f = .err := rfl

/-- A list of elements read one after the other. -/
inductive ParseChain (R : α → Str → Str → Prop) : List α → Str → Str → Prop
  | nil {s} : ParseChain R [] s s
  | cons {a l s s' r} : R a s s' → ParseChain R l s' r → ParseChain R (a :: l) s r

theorem ParseChain.imp {R R' : α → Str → Str → Prop} (h : ∀ a s r, R a s r → R' a s r) {l s r} (hc : ParseChain R l s r) :
    ParseChain R' l s r := by
  induction hc with
  | nil => exact .nil
  | cons h1 _ ih => exact .cons (h _ _ _ h1) ih

theorem ParseChain.map {R : α → Str → Str → Prop} {R' : β → Str → Str → Prop} (f : α → β)
    (h : ∀ a s r, R a s r → R' (f a) s r) {l s r} (hc : ParseChain R l s r) : ParseChain R' (l.map f) s r := by
  induction hc with
  | nil => exact .nil
  | cons h1 _ ih => exact .cons (h _ _ _ h1) ih

theorem ParseChain.length_le {R : α → Str → Str → Prop} (h : ∀ a s r, R a s r → r.length < s.length) {l s r}
    (hc : ParseChain R l s r) : r.length + l.length ≤ s.length := by
  induction hc with
  | nil => simp
  | cons h1 _ ih =>
    have := h _ _ _ h1
    simp only [List.length_cons]
    omega

/-- Elements with separators between them: every element but the last is followed by a separator. -/
inductive SepChain (R : α → Str → Str → Prop) (D : Str → Str → Prop) : List α → Str → Str → Prop
  | one {a s r} : R a s r → SepChain R D [a] s r
  | cons {a l s s1 s2 r} : R a s s1 → D s1 s2 → SepChain R D l s2 r → SepChain R D (a :: l) s r

theorem SepChain.imp {R R' : α → Str → Str → Prop} {D D' : Str → Str → Prop} (h : ∀ a s r, R a s r → R' a s r)
    (hd : ∀ s r, D s r → D' s r) {l s r} (hc : SepChain R D l s r) : SepChain R' D' l s r := by
  induction hc with
  | one h1 => exact .one (h _ _ _ h1)
  | cons h1 h2 _ ih => exact .cons (h _ _ _ h1) (hd _ _ h2) ih

theorem SepChain.map {R : α → Str → Str → Prop} {R' : β → Str → Str → Prop} {D D' : Str → Str → Prop} (f : α → β)
    (h : ∀ a s r, R a s r → R' (f a) s r) (hd : ∀ s r, D s r → D' s r) {l s r} (hc : SepChain R D l s r) :
    SepChain R' D' (l.map f) s r := by
  induction hc with
  | one h1 => exact .one (h _ _ _ h1)
  | cons h1 h2 _ ih => exact .cons (h _ _ _ h1) (hd _ _ h2) ih

namespace Nom

theorem manyLoop_sound {p : P α} : ∀ {n s acc r l}, manyLoop p n s acc = .ok r l →
    ∃ as, l = acc ++ as ∧ ParseChain (fun a s r => p s = .ok r a) as s r ∧ p r = .err := by
  intro n
  induction n with
  | zero => intro s acc r l h; simp [manyLoop] at h
  | succ n ih =>
    intro s acc r l h
    unfold manyLoop at h
    split at h
    · cases h
    · rename_i h0
      injection h with h1 h2
      subst h1 h2
      exact ⟨[], by simp, .nil, h0⟩
    · rename_i r' v h0
      split at h
      · cases h
      · obtain ⟨as, h1, h2, h3⟩ := ih h
        exact ⟨v :: as, by simp [h1], .cons h0 h2, h3⟩

theorem many1_sound {p : P α} {n s r l} (h : many1 n p s = .ok r l) :
    l ≠ [] ∧ ParseChain (fun a s r => p s = .ok r a) l s r ∧ p r = .err := by
  simp only [many1, Res.andThen_ok] at h
  obtain ⟨r1, v, h1, h2⟩ := h
  obtain ⟨as, rfl, h3, h4⟩ := manyLoop_sound h2
  exact ⟨by simp, .cons h1 h3, h4⟩

theorem byteLen_lt_of_suffix {s r : Str} (u : Str) (h : s = u ++ r) (hl : r.length < s.length) : byteLen r < byteLen s := by
  subst h
  cases u with
  | nil => simp at hl
  | cons c u =>
    simp only [List.cons_append, byteLen, byteLen_append]
    have := Char.utf8Size_pos c
    omega

theorem manyLoop_complete {p : P α} {l s r} (h : ParseChain (fun a s r => p s = .ok r a ∧ byteLen r < byteLen s ∧
      r.length < s.length) l s r) (hr : p r = .err) : ∀ {n acc}, s.length < n → manyLoop p n s acc = .ok r (acc ++ l) := by
  induction h with
  | nil =>
    intro n acc hn
    cases n with
    | zero => omega
    | succ n => simp [manyLoop, hr]
  | cons h1 h2 ih =>
    obtain ⟨h1, h3, h4⟩ := h1
    intro n acc hn
    cases n with
    | zero => omega
    | succ n =>
      rw [manyLoop, h1]
      simp only
      rw [if_neg (by omega), ih hr (by omega)]
      simp

theorem many1_complete {p : P α} {l s r} (h : ParseChain (fun a s r => p s = .ok r a ∧ byteLen r < byteLen s ∧
      r.length < s.length) l s r) (hl : l ≠ []) (hr : p r = .err) {n} (hn : s.length < n + 1) : many1 n p s = .ok r l := by
  cases h with
  | nil => exact absurd rfl hl
  | cons h1 h2 =>
    obtain ⟨h1, h3, h4⟩ := h1
    rw [many1, h1]
    simp only [Res.andThen_of_ok]
    rw [manyLoop_complete h2 hr (by omega)]
    simp

theorem manyLoop_no_fuel {p : P α} {N : Nat} (hp : ∀ s, s.length < N → p s ≠ .fuel)
    (hc : ∀ s r v, p s = .ok r v → r.length < s.length) :
    ∀ {n s acc}, s.length < n → s.length < N → manyLoop p n s acc ≠ .fuel := by
  intro n
  induction n with
  | zero => intro s acc h; omega
  | succ n ih =>
    intro s acc h hN
    unfold manyLoop
    split
    · rename_i h0; exact absurd h0 (hp s hN)
    · simp
    · rename_i r v h0
      have := hc _ _ _ h0
      split
      · simp
      · exact ih (by omega) (by omega)

theorem many1_no_fuel {p : P α} {N : Nat} (hp : ∀ s, s.length < N → p s ≠ .fuel)
    (hc : ∀ s r v, p s = .ok r v → r.length < s.length) {n s} (hn : s.length < n + 1) (hN : s.length < N) :
    many1 n p s ≠ .fuel := by
  intro h
  simp only [many1, Res.andThen_fuel] at h
  rcases h with h | ⟨r, v, h1, h2⟩
  · exact hp s hN h
  · have := hc _ _ _ h1
    exact manyLoop_no_fuel hp hc (by omega) (by omega) h2

theorem xtLoop_sound {p : P α} {d : P β} : ∀ {n s acc r l}, xtLoop p d n s acc = .ok r l →
    ∃ as, l = acc ++ as ∧ SepChain (fun a s r => p s = .ok r a) (fun s r => ∃ v, d s = .ok r v) as s r ∧ d r = .err := by
  intro n
  induction n with
  | zero => intro s acc r l h; simp [xtLoop] at h
  | succ n ih =>
    intro s acc r l h
    unfold xtLoop at h
    split at h
    · cases h
    · cases h
    · rename_i r' v h0
      split at h
      · cases h
      · rename_i hd
        injection h with h1 h2
        subst h1 h2
        exact ⟨[v], rfl, .one h0, hd⟩
      · rename_i r2 w hd
        obtain ⟨as, h1, h2, h3⟩ := ih h
        exact ⟨v :: as, by simp [h1], .cons h0 ⟨w, hd⟩ h2, h3⟩

theorem xtList_sound {p : P α} {d : P β} {n s r l} (h : xtList n p d s = .ok r l) :
    SepChain (fun a s r => p s = .ok r a) (fun s r => ∃ v, d s = .ok r v) l s r ∧ d r = .err := by
  obtain ⟨as, rfl, h1, h2⟩ := xtLoop_sound h
  exact ⟨h1, h2⟩

theorem xtLoop_complete {p : P α} {d : P β} {l s r}
    (h : SepChain (fun a s r => p s = .ok r a ∧ r.length < s.length)
      (fun s r => (∃ v, d s = .ok r v) ∧ r.length < s.length) l s r)
    (hr : d r = .err) : ∀ {n acc}, s.length < n → xtLoop p d n s acc = .ok r (acc ++ l) := by
  induction h with
  | one h1 =>
    intro n acc hn
    cases n with
    | zero => omega
    | succ n => rw [xtLoop, h1.1]; simp only; rw [hr]
  | cons h1 h2 _ ih =>
    obtain ⟨h1, h3⟩ := h1
    obtain ⟨⟨v, h2⟩, h4⟩ := h2
    intro n acc hn
    cases n with
    | zero => omega
    | succ n =>
      rw [xtLoop, h1]
      simp only
      rw [h2]
      simp only
      rw [ih hr (by omega)]
      simp

theorem xtLoop_no_fuel {p : P α} {d : P β} {N : Nat} (hp : ∀ s, s.length < N → p s ≠ .fuel) (hd : ∀ s, d s ≠ .fuel)
    (hpc : ∀ s r v, p s = .ok r v → r.length < s.length) (hdc : ∀ s r v, d s = .ok r v → r.length < s.length) :
    ∀ {n s acc}, s.length < n → s.length < N → xtLoop p d n s acc ≠ .fuel := by
  intro n
  induction n with
  | zero => intro s acc h; omega
  | succ n ih =>
    intro s acc h hN
    unfold xtLoop
    split
    · rename_i h0; exact absurd h0 (hp s hN)
    · simp
    · rename_i r v h0
      have := hpc _ _ _ h0
      split
      · rename_i h1; exact absurd h1 (hd r)
      · simp
      · rename_i r' w h1
        have := hdc _ _ _ h1
        exact ih (by omega) (by omega)

/-! ## Basic parsers -/

theorem char_ok {c : Char} {s r d} : char c s = .ok r d ↔ s = c :: r ∧ d = c := by
  cases s with
  | nil => simp [char]
  | cons e s =>
    by_cases h : e = c
    · subst h; simp only [char, if_true, Res.ok.injEq, List.cons.injEq, true_and]
      constructor <;> rintro ⟨h1, h2⟩ <;> exact ⟨h1, h2.symm⟩
    · simp [char, h]

theorem char_cons (c : Char) (s : Str) : char c (c :: s) = .ok s c := by simp [char]
theorem char_ne {c d : Char} (h : d ≠ c) (s : Str) : char c (d :: s) = .err := by simp [char, h]
theorem char_nil (c : Char) : char c [] = .err := rfl
theorem char_no_fuel (c : Char) (s : Str) : char c s ≠ .fuel := by
  cases s with
  | nil => simp [char]
  | cons d s => simp only [char]; split <;> simp

theorem tag_ok {t s r : Str} {v} : tag t s = .ok r v ↔ s = t ++ r := by
  induction t generalizing s with
  | nil => simp [tag]
  | cons c t ih =>
    cases s with
    | nil => simp [tag]
    | cons d s =>
      unfold tag
      split
      · rename_i h; subst h; simp [ih]
      · rename_i h; simp; intro h1; exact absurd h1.symm h

theorem tag_append (t s : Str) : tag t (t ++ s) = .ok s () := tag_ok.mpr rfl
theorem tag_no_fuel (t s : Str) : tag t s ≠ .fuel := by
  induction t generalizing s with
  | nil => simp [tag]
  | cons c t ih =>
    cases s with
    | nil => simp [tag]
    | cons d s =>
      unfold tag
      split
      · exact ih s
      · simp

theorem takeTill_ok {f : Char → Bool} {s r u : Str} : takeTill f s = .ok r u ↔
    s = u ++ r ∧ (∀ c ∈ u, f c = false) ∧ (r = [] ∨ ∃ c cs, r = c :: cs ∧ f c = true) := by
  simp only [takeTill, Res.ok.injEq]
  induction s generalizing u with
  | nil =>
    constructor
    · rintro ⟨rfl, rfl⟩; simp
    · rintro ⟨h, _⟩
      have := List.nil_eq_append_iff.mp h
      simp [this.1, this.2]
  | cons d s ih =>
    by_cases hd : f d = true
    · simp only [List.dropWhile_cons, List.takeWhile_cons, hd, Bool.not_true, Bool.false_eq_true, if_false]
      constructor
      · rintro ⟨rfl, rfl⟩
        exact ⟨rfl, by simp, .inr ⟨_, _, rfl, hd⟩⟩
      · rintro ⟨h, h1, h2⟩
        cases u with
        | nil => simpa using h
        | cons c u =>
          simp only [List.cons_append, List.cons.injEq] at h
          have := h1 c (by simp)
          rw [← h.1, hd] at this
          cases this
    · simp only [Bool.not_eq_true] at hd
      simp only [List.dropWhile_cons, List.takeWhile_cons, hd, Bool.not_false, if_true]
      constructor
      · rintro ⟨h1, rfl⟩
        obtain ⟨h2, h3, h4⟩ := ih.mp ⟨h1, rfl⟩
        refine ⟨?_, ?_, h4⟩
        · rw [List.cons_append, ← h2]
        · intro c hc
          rcases List.mem_cons.mp hc with rfl | hc
          · exact hd
          · exact h3 c hc
      · rintro ⟨h, h1, h2⟩
        cases u with
        | nil =>
          simp only [List.nil_append] at h
          subst h
          rcases h2 with h2 | ⟨c, cs, h2, h3⟩
          · cases h2
          · injection h2 with h2 _; subst h2; rw [hd] at h3; cases h3
        | cons c u =>
          simp only [List.cons_append, List.cons.injEq] at h
          obtain ⟨h3, h4⟩ := ih.mpr ⟨h.2, fun c hc => h1 c (by simp [hc]), h2⟩
          exact ⟨h3, by rw [h.1, h4]⟩

theorem takeUntil_ok {c : Char} {s r u : Str} : takeUntil c s = .ok r u ↔ ∃ r', r = c :: r' ∧ s = u ++ c :: r' ∧ c ∉ u := by
  have key := takeTill_ok (f := fun d => decide (d = c)) (s := s) (r := r) (u := u)
  simp only [takeTill, decide_eq_false_iff_not, decide_eq_true_eq] at key
  unfold takeUntil
  have e : (fun d : Char => decide (d ≠ c)) = fun d => !decide (d = c) := by funext d; simp
  simp only [e]
  constructor
  · intro h
    split at h
    · rename_i hc
      obtain ⟨h1, h2, h3⟩ := key.mp h
      rcases h3 with rfl | ⟨d, ds, rfl, rfl⟩
      · simp at h1; subst h1; exact absurd rfl (h2 _ hc)
      · exact ⟨ds, rfl, h1, fun hm => h2 _ hm rfl⟩
    · cases h
  · rintro ⟨r', rfl, rfl, h⟩
    rw [if_pos (by simp)]
    exact key.mpr ⟨rfl, fun d hd e => h (e ▸ hd), .inr ⟨_, _, rfl, rfl⟩⟩

theorem takeUntil_no_fuel (c : Char) (s : Str) : takeUntil c s ≠ .fuel := by
  unfold takeUntil; split <;> simp

theorem alt_ok {a b : P α} {s r v} : alt a b s = .ok r v ↔ a s = .ok r v ∨ (a s = .err ∧ b s = .ok r v) := by
  unfold alt
  split
  · rename_i h; simp [h]
  · rename_i h; simp; intro h1; exact absurd h1 (by simpa using h)

theorem alt_of_err {a b : P α} {s} (h : a s = .err) : alt a b s = b s := by simp [alt, h]
theorem alt_of_ok {a b : P α} {s r v} (h : a s = .ok r v) : alt a b s = .ok r v := by simp [alt, h]
theorem alt_no_fuel {a b : P α} {s} (ha : a s ≠ .fuel) (hb : b s ≠ .fuel) : alt a b s ≠ .fuel := by
  unfold alt
  split
  · exact hb
  · exact ha

theorem terminated_not_ok {a : P α} {b : P β} {s r v} : terminated a (not b) s = .ok r v ↔ a s = .ok r v ∧ b r = .err := by
  simp only [terminated, Res.andThen_ok, Res.ok.injEq]
  constructor
  · rintro ⟨r1, v1, h1, r2, _, h2, rfl, rfl⟩
    unfold not at h2
    split at h2 <;> simp_all
  · rintro ⟨h1, h2⟩
    exact ⟨r, v, h1, r, (), by simp [not, h2], rfl, rfl⟩

theorem terminated_not_err {a : P α} {b : P β} {s} (h : a s = .err ∨ ∃ r v w r', a s = .ok r v ∧ b r = .ok r' w) :
    terminated a (not b) s = .err := by
  rcases h with h | ⟨r, v, w, r', h1, h2⟩
  · simp [terminated, h]
  · simp [terminated, h1, not, h2]

theorem terminated_not_no_fuel {a : P α} {b : P β} {s} (h : a s ≠ .fuel) (hb : ∀ s, b s ≠ .fuel) :
    terminated a (not b) s ≠ .fuel := by
  intro h'
  simp only [terminated, Res.andThen_fuel] at h'
  rcases h' with h' | ⟨r, v, _, h2 | ⟨_, _, _, h3⟩⟩
  · exact h h'
  · unfold not at h2
    split at h2
    · cases h2
    · cases h2
    · rename_i h3; exact hb _ h3
  · cases h3

end Nom
end Bnf
