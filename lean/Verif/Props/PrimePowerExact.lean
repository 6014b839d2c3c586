import Verif.Props.PseudoPrime

/-!
Property C54: exactly when `is_pseudo_prime_power` (/repo/src/util.rs lines 695-769) is right.
-/

namespace Algebraics

/-- what the first loop can end with: the entries of the list are powers of the prime, and the exponent is too large
or no entry but the prime itself was made. -/
theorem powersLoop_cases (n len p : ℕ) (hn : 1 < n) : ∀ (k i : ℕ) (l : List ℕ) (e : ℕ), 
    i + k = len → (∀ x ∈ l, ∃ m, x = p ^ m) → (∃ t, l = p ^ e :: t) → (k = 0 → l.length = 1) → (∃ j, e = 2 ^ j) →
    (powersLoop n len k i l e = .panic) ∨ (∃ j, powersLoop n len k i l e = .found (2 ^ j) ∧ n = p ^ 2 ^ j) ∨
    ∃ l' e', powersLoop n len k i l e = .done l' e' ∧ (∀ x ∈ l', ∃ m, x = p ^ m) ∧
      (l'.length = 1 ∨ n < p ^ e') := by
  intro k
  induction k with
  | zero =>
    intro i l e hi hl ht h1 hj
    exact Or.inr (Or.inr ⟨l, e, rfl, hl, Or.inl (h1 rfl)⟩)
  | succ k ih =>
    intro i l e hi hl ht h1 hj
    obtain ⟨t, rfl⟩ := ht
    obtain ⟨j, rfl⟩ := hj
    have e2 : p ^ 2 ^ j * p ^ 2 ^ j = p ^ (2 ^ j * 2) := by rw [← pow_add]; ring_nf
    simp only [powersLoop, e2]
    by_cases c1 : n < p ^ (2 ^ j * 2)
    · rw [if_pos c1]; exact Or.inr (Or.inr ⟨_, _, rfl, hl, Or.inr c1⟩)
    rw [if_neg c1]
    by_cases c2 : n = p ^ (2 ^ j * 2)
    · rw [if_pos c2]; exact Or.inr (Or.inl ⟨j + 1, by rw [pow_succ], by rw [pow_succ]; exact c2⟩)
    rw [if_neg c2]
    by_cases c3 : i < len - 1
    · rw [if_pos c3]
      refine ih (i + 1) _ _ (by omega) ?_ ⟨_, rfl⟩ (by omega) ⟨j + 1, by rw [pow_succ]⟩
      intro x hx
      rcases List.mem_cons.mp hx with rfl | hx
      · exact ⟨_, rfl⟩
      · exact hl x hx
    · rw [if_neg c3]; exact Or.inl rfl

theorem exponentLoop_cases (n p : ℕ) : ∀ (l : List ℕ) (x e r : ℕ), (∀ x ∈ l, ∃ m, x = p ^ m) → (∃ m, x = p ^ m) →
    exponentLoop n l x e = some r → (∃ m, n = p ^ m) ∧ e ≤ r := by
  intro l
  induction l with
  | nil => intro x e r _ _ h; simp [exponentLoop] at h
  | cons q l ih =>
    intro x e r hl hx h
    obtain ⟨m, rfl⟩ := hx
    obtain ⟨m', rfl⟩ := hl q (List.mem_cons_self ..)
    have hl' : ∀ x ∈ l, ∃ m, x = p ^ m := fun x hx => hl x (List.mem_cons_of_mem _ hx)
    simp only [exponentLoop] at h
    have hor : e ≤ e ||| 2 ^ l.length := Nat.left_le_or
    by_cases c1 : n < p ^ m' * p ^ m
    · rw [if_pos c1] at h
      obtain ⟨h1, h2⟩ := ih _ _ r hl' ⟨m' + m, by rw [pow_add]⟩ h
      exact ⟨h1, hor.trans h2⟩
    rw [if_neg c1] at h
    by_cases c2 : n = p ^ m' * p ^ m
    · rw [if_pos c2] at h
      cases h
      exact ⟨⟨m' + m, by rw [c2, pow_add]⟩, hor⟩
    · rw [if_neg c2] at h
      exact ih _ _ r hl' ⟨m, rfl⟩ h

theorem primePowerFound_cases (n M p b e : ℕ) (hn : 1 < n) (h : primePowerFound n M p = some (some (b, e))) :
    b = p ∧ ((∃ j, e = 2 ^ j ∧ n = p ^ e) ∨ (∃ m, n = p ^ m) ∧ n < p ^ e) := by
  unfold primePowerFound at h
  by_cases c : n = p
  · rw [if_pos c] at h
    cases h
    exact ⟨rfl, Or.inl ⟨0, rfl, by rw [pow_one, c]⟩⟩
  simp only [if_neg c] at h
  rcases powersLoop_cases n (Nat.log 2 M + 1) p hn (Nat.log 2 M + 1 - 1) 1 [p] 1 (by omega)
    (fun x hx => ⟨1, by rw [List.mem_singleton.mp hx, pow_one]⟩) ⟨[], by rw [pow_one]⟩ (fun _ => rfl) ⟨0, rfl⟩ with
    h1 | ⟨j, h1, h2⟩ | ⟨l, e', h1, h2, h3⟩
  · rw [h1] at h; cases h
  · rw [h1] at h; cases h
    exact ⟨rfl, Or.inl ⟨j, rfl, h2⟩⟩
  · rw [h1] at h
    cases l with
    | nil => cases h
    | cons q l =>
      obtain ⟨r, hr, h4⟩ := Option.map_eq_some_iff.mp h
      cases h4
      obtain ⟨h5, h6⟩ := exponentLoop_cases n p l q e' e (fun x hx => h2 x (List.mem_cons_of_mem _ hx))
        (h2 q (List.mem_cons_self ..)) hr
      refine ⟨rfl, Or.inr ⟨h5, ?_⟩⟩
      rcases h3 with h3 | h3
      · obtain rfl : l = [] := by simpa using h3
        simp [exponentLoop] at hr
      · refine h3.trans_le (Nat.pow_le_pow_right ?_ h6)
        rcases Nat.eq_zero_or_pos p with rfl | hp
        · obtain ⟨m, rfl⟩ := h5
          cases m <;> simp at hn
        · exact hp

theorem primePowerLoop_cases (n M : ℕ) (r : Option (ℕ × ℕ)) : ∀ l : List ℕ, primePowerLoop n M l = some r →
    ∃ p ∈ l, p ∣ n ∧ primePowerFound n M p = some r := by
  intro l
  induction l with
  | nil => intro h; cases h
  | cons q l ih =>
    intro h
    rw [primePowerLoop] at h
    by_cases c : n % q = 0
    · rw [if_pos c] at h; exact ⟨q, List.mem_cons_self .., Nat.dvd_of_mod_eq_zero c, h⟩
    · rw [if_neg c] at h
      obtain ⟨p, hp, h'⟩ := ih h
      exact ⟨p, List.mem_cons_of_mem _ hp, h'⟩

theorem primePowerFound_ne (n M p : ℕ) : primePowerFound n M p ≠ some none := by
  unfold primePowerFound
  dsimp only
  split
  · simp
  · split <;> simp

/-- C54: whenever `is_pseudo_prime_power` returns a base and an exponent, the number is a power of that base, which is
a prime up to 541; the exponent is right or too large. -/
theorem C54_prime_power_base (n b e : ℕ) (h : isPseudoPrimePower n = some (some (b, e))) :
    b.Prime ∧ b ≤ 541 ∧ ∃ m, 0 < m ∧ n = b ^ m ∧ m ≤ e := by
  rw [isPseudoPrimePower] at h
  by_cases h0 : n = 0
  · rw [if_pos h0] at h; cases h
  rw [if_neg h0] at h
  by_cases h1 : Nat.log 2 n = 0
  · rw [if_pos h1] at h; cases h
  rw [if_neg h1] at h
  have hn : 1 < n := by
    by_contra hc
    exact h1 (by rw [show n = 1 by omega]; simp)
  obtain ⟨p, hp, -, hf⟩ := primePowerLoop_cases _ _ _ _ h
  obtain ⟨hp, h541⟩ := (mem_take_hundred p).mp hp
  obtain ⟨rfl, hc⟩ := primePowerFound_cases n _ p b e hn hf
  refine ⟨hp, h541, ?_⟩
  have pos : ∀ m, n = b ^ m → 0 < m := by
    rintro m rfl
    rcases Nat.eq_zero_or_pos m with rfl | hm
    · simp at hn
    · exact hm
  rcases hc with ⟨j, rfl, hj⟩ | ⟨⟨m, hm⟩, hlt⟩
  · exact ⟨_, pos _ hj, hj, le_rfl⟩
  · refine ⟨m, pos m hm, hm, ?_⟩
    rw [hm] at hlt
    exact ((Nat.pow_lt_pow_iff_right hp.one_lt).mp hlt).le

/-- C54, exactly: the exponent of a power of a prime up to 541 comes out right if and only if it is a power of two. -/
theorem C54_prime_power_iff (p m : ℕ) (hp : p.Prime) (h541 : p ≤ 541) (hm : 0 < m) :
    isPseudoPrimePower (p ^ m) = some (some (p, m)) ↔ ∃ k, m = 2 ^ k := by
  constructor
  · intro h
    have h' := h
    rw [isPseudoPrimePower, if_neg (by have := hp.pos; positivity)] at h'
    by_cases h1 : Nat.log 2 (p ^ m) = 0
    · rw [if_pos h1] at h'; cases h'
    rw [if_neg h1] at h'
    obtain ⟨q, -, -, hf⟩ := primePowerLoop_cases _ _ _ _ h'
    obtain ⟨rfl, hc⟩ := primePowerFound_cases _ _ q p m (Nat.one_lt_pow (by omega) hp.one_lt) hf
    rcases hc with ⟨j, hj, -⟩ | ⟨-, hlt⟩
    · exact ⟨j, hj⟩
    · exact absurd hlt (lt_irrefl _)
  · rintro ⟨k, rfl⟩
    exact C54_prime_power_partial p k hp h541

/-- C54: no number above one is ever reported as not being a prime power: the function panics instead. -/
theorem C54_prime_power_never_err (n : ℕ) : isPseudoPrimePower n = some none ↔ n ≤ 1 := by
  rw [isPseudoPrimePower]
  by_cases h0 : n = 0
  · rw [if_pos h0]; simp [h0]
  rw [if_neg h0]
  by_cases h1 : Nat.log 2 n = 0
  · rw [if_pos h1]
    rw [Nat.log_eq_zero_iff] at h1
    simp; omega
  · rw [if_neg h1]
    rw [Nat.log_eq_zero_iff] at h1
    constructor
    · intro h
      obtain ⟨p, -, -, hf⟩ := primePowerLoop_cases _ _ _ _ h
      exact absurd hf (primePowerFound_ne _ _ _)
    · intro h; omega

example : isPseudoPrimePower (7 ^ 4) = some (some (7, 4)) :=
  (C54_prime_power_iff 7 4 (by norm_num) (by norm_num) (by norm_num)).mpr ⟨2, rfl⟩

example : isPseudoPrimePower (7 ^ 6) ≠ some (some (7, 6)) := fun h => by
  obtain ⟨k, hk⟩ := (C54_prime_power_iff 7 6 (by norm_num) (by norm_num) (by norm_num)).mp h
  have : k < 3 := by
    by_contra hc
    have := Nat.pow_le_pow_right (show 0 < 2 by norm_num) (not_lt.mp hc)
    omega
  interval_cases k <;> omega

end Algebraics
