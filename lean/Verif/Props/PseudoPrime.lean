import Verif.Lemmas.Primes

/-!
Property C54: the unfinished pseudo-prime tests of `/repo/src/util.rs`.
-/

namespace Algebraics

/-! ## C54 -/

theorem take_hundred : primesThatFitInU16.take 100 =
    (List.range 542).filter (fun n => decide (Nat.Prime n)) := by decide +kernel

theorem mem_take_hundred (p : ℕ) : p ∈ primesThatFitInU16.take 100 ↔ p.Prime ∧ p ≤ 541 := by
  rw [take_hundred]
  simp only [List.mem_filter, List.mem_range, decide_eq_true_eq]
  rw [and_comm, Nat.lt_succ_iff]

theorem smallDivisorsLoop_spec (v : ℕ) (h2 : 2 ≤ v) :
    ∀ (pre suf : List ℕ), pre ++ suf = primesThatFitInU16.take 100 → (∀ p ∈ pre, ¬ p ∣ v) →
      (smallDivisorsLoop v suf = some (decide v.Prime) ∧ (v.Prime → v < 541 * 541)) ∨
      (smallDivisorsLoop v suf = none ∧ (∀ p, p.Prime → p ≤ 541 → ¬ p ∣ v) ∧
        ∀ p ∈ suf, p * p ≤ v) := by
  intro pre suf
  induction suf generalizing pre with
  | nil =>
    intro hs hpre
    rw [List.append_nil] at hs
    refine Or.inr ⟨rfl, fun p hp h541 => hpre p ?_, by simp⟩
    rw [hs]
    exact (mem_take_hundred p).mpr ⟨hp, h541⟩
  | cons q suf ih =>
    intro hs hpre
    have hqm : q ∈ primesThatFitInU16.take 100 := by rw [← hs]; simp
    obtain ⟨hq, hq541⟩ := (mem_take_hundred q).mp hqm
    rw [smallDivisorsLoop]
    by_cases h1 : v = q
    · rw [if_pos h1]
      exact Or.inl ⟨by rw [h1, decide_eq_true hq], fun _ => by omega⟩
    rw [if_neg h1]
    by_cases h3 : v % q = 0
    · rw [if_pos h3]
      have hv : ¬ v.Prime := fun hv => h1 ((Nat.prime_dvd_prime_iff_eq hq hv).mp (Nat.dvd_of_mod_eq_zero h3)).symm
      exact Or.inl ⟨by rw [decide_eq_false hv], fun h => absurd h hv⟩
    rw [if_neg h3]
    have hbelow : ∀ p, p.Prime → p < q → ¬ p ∣ v := by
      intro p hp hlt
      apply hpre
      have hpm := (mem_take_hundred p).mpr ⟨hp, by omega⟩
      have hpw := table_pairwise.sublist (List.take_sublist 100 _)
      rw [← hs] at hpm hpw
      rcases List.mem_append.mp hpm with h | h
      · exact h
      · rcases List.mem_cons.mp h with h | h
        · omega
        · have := (List.pairwise_cons.mp (List.pairwise_append.mp hpw).2.1).1 p h
          omega
    by_cases h4 : v < q * q
    · rw [if_pos h4]
      refine Or.inl ⟨congrArg some (decide_eq_true ?_).symm, fun _ => by nlinarith⟩
      by_contra hv
      have hm := Nat.minFac_prime (by omega : v ≠ 1)
      have hsq := Nat.minFac_sq_le_self (by omega : 0 < v) hv
      exact hbelow _ hm (by nlinarith) (Nat.minFac_dvd v)
    rw [if_neg h4]
    rcases ih (pre ++ [q]) (by simpa using hs) (by
      intro p hp
      rcases List.mem_append.mp hp with h | h
      · exact hpre p h
      · rw [List.mem_singleton.mp h]
        exact fun hd => h3 (Nat.mod_eq_zero_of_dvd hd)) with h | ⟨h, h', h''⟩
    · exact Or.inl h
    · refine Or.inr ⟨h, h', fun p hp => ?_⟩
      rcases List.mem_cons.mp hp with rfl | hp
      · omega
      · exact h'' p hp

theorem isPseudoPrimeTail_ne (n : ℕ) : isPseudoPrimeTail n ≠ some true := by
  rw [isPseudoPrimeTail]
  cases trailingZerosU (n - 1) with
  | none => simp
  | some r =>
    simp only
    rw [show primesThatFitInU16.take 13 = 2 :: (primesThatFitInU16.take 13).tail by decide +kernel,
      millerRabinLoop, millerRabinTestForBase]
    by_cases h : 2 ^ ((n - 1) / 2 ^ r) % n = 1 ∨ n - 2 ^ ((n - 1) / 2 ^ r) % n = 1
    · simp only [if_pos h]; simp
    · simp only [if_neg h]; simp

theorem isPseudoPrime_cases (n : ℕ) : 
    (isPseudoPrime n = some (decide n.Prime) ∧ (n.Prime → n < 541 * 541)) ∨
    (isPseudoPrime n = isPseudoPrimeTail n ∧ 541 * 541 ≤ n ∧ ∀ p, p.Prime → p ≤ 541 → ¬ p ∣ n) := by
  rw [isPseudoPrime]
  by_cases h1 : n ≤ 1
  · rw [if_pos h1]
    have hv : ¬ n.Prime := fun hp => by have := hp.two_le; omega
    exact Or.inl ⟨by rw [decide_eq_false hv], fun h => absurd h hv⟩
  rw [if_neg h1]
  by_cases h2 : Nat.sqrt n * Nat.sqrt n = n
  · rw [if_pos h2]
    have hv : ¬ n.Prime := fun hp => by
      rw [← h2] at hp
      exact Nat.not_prime_mul
        (fun h => by rw [h] at h2; omega) (fun h => by rw [h] at h2; omega) hp
    exact Or.inl ⟨by rw [decide_eq_false hv], fun h => absurd h hv⟩
  rw [if_neg h2]
  by_cases h3 : n < 2 ^ 128
  · rw [if_pos h3, isPrimeCheckSmallDivisors, if_neg h1]
    rcases smallDivisorsLoop_spec n (by omega) []
      (primesThatFitInU16.take 100) (List.nil_append _) (by simp) with ⟨hb, hb'⟩ | ⟨h, h', h''⟩
    · rw [hb]; exact Or.inl ⟨rfl, hb'⟩
    · rw [h]
      exact Or.inr ⟨rfl, h'' 541 ((mem_take_hundred 541).mpr (by norm_num)), h'⟩
  · rw [if_neg h3]
    by_cases h4 : primesThatFitInU16.any (fun prime => n % prime == 0) = true
    · rw [if_pos h4]
      have hv : ¬ n.Prime := fun hp => by
        rw [List.any_eq_true] at h4
        obtain ⟨q, hq, hqn⟩ := h4
        obtain ⟨hq, hq16⟩ := (mem_table_iff q).mp hq
        rw [beq_iff_eq] at hqn
        have h5 := (Nat.prime_dvd_prime_iff_eq hq hp).mp (Nat.dvd_of_mod_eq_zero hqn)
        have h6 : 65536 < 2 ^ 128 := by norm_num
        exact h3 (h5 ▸ hq16.trans h6)
      exact Or.inl ⟨by rw [decide_eq_false hv], fun h => absurd h hv⟩
    · rw [if_neg h4]
      refine Or.inr ⟨rfl, ?_, fun p hp hp541 hd => h4 ?_⟩
      · have h6 : 541 * 541 < 2 ^ 128 := by norm_num
        exact h6.le.trans (not_lt.mp h3)
      · rw [List.any_eq_true]
        exact ⟨p, (mem_table_iff p).mpr ⟨hp, by omega⟩, by
          rw [beq_iff_eq]; exact Nat.mod_eq_zero_of_dvd hd⟩

/-- C54 (partial): `is_pseudo_prime` is right for every number below 541² and for every number
with a prime factor up to 541.  Missing: all other numbers, where the function is unfinished. -/
theorem C54_pseudo_prime_partial (n : ℕ)
    (h : n < 541 * 541 ∨ ∃ p, p.Prime ∧ p ≤ 541 ∧ p ∣ n) :
    isPseudoPrime n = some (decide n.Prime) := by
  rcases isPseudoPrime_cases n with ⟨h', -⟩ | ⟨-, h1, h2⟩
  · exact h'
  · rcases h with h | ⟨p, hp, hp', hd⟩
    · omega
    · exact absurd hd (h2 p hp hp')

example : isPseudoPrime 292677 = some false := by
  rw [C54_pseudo_prime_partial _ (Or.inl (by norm_num))]; norm_num
example : isPseudoPrime 292679 = some true := by
  rw [C54_pseudo_prime_partial _ (Or.inl (by norm_num))]; norm_num

/-- C54: it never calls a composite number prime. -/
theorem C54_pseudo_prime_sound (n : ℕ) (h : isPseudoPrime n = some true) : n.Prime := by
  rcases isPseudoPrime_cases n with ⟨h', -⟩ | ⟨h1, -, -⟩
  · rw [h] at h'
    simpa using (Option.some.inj h').symm
  · rw [h1] at h
    exact absurd h (isPseudoPrimeTail_ne n)

/-- C54 is false in full: no prime from 541² on is recognized; the call returns `false` or panics
(`unimplemented!`). -/
theorem C54_pseudo_prime_false (n : ℕ) (hn : n.Prime) (h : 541 * 541 ≤ n) :
    isPseudoPrime n ≠ some true := by
  rcases isPseudoPrime_cases n with ⟨-, h'⟩ | ⟨h1, -, -⟩
  · have := h' hn
    omega
  · rw [h1]
    exact isPseudoPrimeTail_ne n

theorem primePowerLoop_found (n m p : ℕ) (hp : p ∣ n) (l : List ℕ) (hl : p ∈ l)
    (hne : ∀ q ∈ l, q ≠ p → ¬ q ∣ n) : primePowerLoop n m l = primePowerFound n m p := by
  induction l with
  | nil => simp at hl
  | cons q l ih =>
    rw [primePowerLoop]
    by_cases hq : q = p
    · subst hq
      rw [if_pos (Nat.mod_eq_zero_of_dvd hp)]
    · rw [if_neg fun h => hne q (List.mem_cons_self ..) hq (Nat.dvd_of_mod_eq_zero h)]
      refine ih ?_ fun r hr => hne r (List.mem_cons_of_mem _ hr)
      rcases List.mem_cons.mp hl with h | h
      · exact absurd h.symm hq
      · exact h

theorem powersLoop_found (p K len : ℕ) (hp : 2 ≤ p) (hlen : K < len) :
    ∀ (d i : ℕ) (rest : List ℕ), i + d = K → 1 ≤ i →
      powersLoop (p ^ 2 ^ K) len (len - i) i (p ^ 2 ^ (i - 1) :: rest) (2 ^ (i - 1)) =
        .found (2 ^ K) := by
  intro d
  induction d with
  | zero =>
    intro i rest hi h1
    obtain ⟨k, hk⟩ : ∃ k, len - i = k + 1 := ⟨len - i - 1, by omega⟩
    obtain ⟨j, rfl⟩ : ∃ j, i = j + 1 := ⟨i - 1, by omega⟩
    obtain rfl : K = j + 1 := by omega
    rw [hk, powersLoop, Nat.add_sub_cancel]
    have e : p ^ 2 ^ j * p ^ 2 ^ j = p ^ 2 ^ (j + 1) := by rw [← pow_add, pow_succ]; ring_nf
    simp only [e, lt_irrefl, if_false, if_true]
    rw [pow_succ]
  | succ d ih =>
    intro i rest hi h1
    obtain ⟨k, hk⟩ : ∃ k, len - i = k + 1 := ⟨len - i - 1, by omega⟩
    obtain ⟨j, rfl⟩ : ∃ j, i = j + 1 := ⟨i - 1, by omega⟩
    rw [hk, powersLoop, Nat.add_sub_cancel]
    have e : p ^ 2 ^ j * p ^ 2 ^ j = p ^ 2 ^ (j + 1) := by rw [← pow_add, pow_succ]; ring_nf
    have hlt : p ^ 2 ^ (j + 1) < p ^ 2 ^ K :=
      Nat.pow_lt_pow_right (by omega) (Nat.pow_lt_pow_right (by omega) (by omega))
    simp only [e]
    rw [if_neg (by omega), if_neg (by omega), if_pos (by omega)]
    have := ih (j + 2) (p ^ 2 ^ j :: rest) (by omega) (by omega)
    rw [show len - (j + 2) = k by omega, show j + 2 - 1 = j + 1 by omega] at this
    rw [← this, pow_succ]

/-- C54 (partial): `is_pseudo_prime_power` finds base and exponent for primes up to 541 with an
exponent that is a power of two.  Missing: all other arguments, see the counterexamples below. -/
theorem C54_prime_power_partial (p k : ℕ) (hp : p.Prime) (h541 : p ≤ 541) :
    isPseudoPrimePower (p ^ 2 ^ k) = some (some (p, 2 ^ k)) := by
  have h2 := hp.two_le
  have hpow : p ≤ p ^ 2 ^ k := Nat.le_self_pow (by positivity) p
  have hlog : 2 ^ k ≤ Nat.log 2 (p ^ 2 ^ k) :=
    Nat.le_log_of_pow_le (by omega) (Nat.pow_le_pow_left h2 _)
  have hk : 0 < 2 ^ k := by positivity
  rw [isPseudoPrimePower, if_neg (by omega), if_neg (by omega)]
  rw [primePowerLoop_found _ _ p (dvd_pow_self p (by positivity)) _
    ((mem_take_hundred p).mpr ⟨hp, h541⟩) ?_, primePowerFound]
  · cases k with
    | zero => simp
    | succ k =>
      have hlt : p < p ^ 2 ^ (k + 1) := by
        calc p = p ^ 1 := (pow_one p).symm
          _ < p ^ 2 ^ (k + 1) := Nat.pow_lt_pow_right (by omega) (Nat.one_lt_two_pow (by omega))
      rw [if_neg (by omega)]
      have hlen : k + 1 ≤ Nat.log 2 (Nat.log 2 (p ^ 2 ^ (k + 1))) :=
        Nat.le_log_of_pow_le (by omega) hlog
      have := powersLoop_found p (k + 1) (Nat.log 2 (Nat.log 2 (p ^ 2 ^ (k + 1))) + 1) h2
        (by omega) k 1 [] (by omega) le_rfl
      simp only [Nat.sub_self, pow_zero, pow_one] at this
      rw [this]
  · intro q hq hqp hd
    obtain ⟨hq, -⟩ := (mem_take_hundred q).mp hq
    exact hqp ((Nat.prime_dvd_prime_iff_eq hq hp).mp (hq.dvd_of_dvd_pow hd))

example : isPseudoPrimePower 6561 = some (some (3, 8)) := C54_prime_power_partial 3 3 (by norm_num) (by norm_num)

/-- C54 is false in full: `27 = 3 ^ 3` is reported as `3 ^ 5`, and `8 = 2 ^ 3` and
`3125 = 5 ^ 5` panic. -/
theorem C54_prime_power_false :
    isPseudoPrimePower 27 = some (some (3, 5)) ∧ isPseudoPrimePower 8 = none ∧
      isPseudoPrimePower 3125 = none := by
  refine ⟨?_, ?_, ?_⟩
  · rw [isPseudoPrimePower, if_neg (by norm_num), if_neg (by norm_num)]
    rw [primePowerLoop_found 27 _ 3 (by norm_num) _ ((mem_take_hundred 3).mpr (by norm_num)) ?_,
      show Nat.log 2 27 = 4 by norm_num, primePowerFound, show Nat.log 2 4 = 2 by norm_num]
    · rfl
    · intro q hq hqp hd
      obtain ⟨hq, -⟩ := (mem_take_hundred q).mp hq
      rw [show 27 = 3 ^ 3 by norm_num] at hd
      exact hqp ((Nat.prime_dvd_prime_iff_eq hq (by norm_num)).mp (hq.dvd_of_dvd_pow hd))
  · rw [isPseudoPrimePower, if_neg (by norm_num), if_neg (by norm_num)]
    rw [primePowerLoop_found 8 _ 2 (by norm_num) _ ((mem_take_hundred 2).mpr (by norm_num)) ?_,
      show Nat.log 2 8 = 3 by norm_num, primePowerFound, show Nat.log 2 3 = 1 by norm_num]
    · rfl
    · intro q hq hqp hd
      obtain ⟨hq, -⟩ := (mem_take_hundred q).mp hq
      rw [show 8 = 2 ^ 3 by norm_num] at hd
      exact hqp ((Nat.prime_dvd_prime_iff_eq hq (by norm_num)).mp (hq.dvd_of_dvd_pow hd))
  · rw [isPseudoPrimePower, if_neg (by norm_num), if_neg (by norm_num)]
    rw [primePowerLoop_found 3125 _ 5 (by norm_num) _ ((mem_take_hundred 5).mpr (by norm_num)) ?_,
      show Nat.log 2 3125 = 11 by norm_num, primePowerFound, show Nat.log 2 11 = 3 by norm_num]
    · rfl
    · intro q hq hqp hd
      obtain ⟨hq, -⟩ := (mem_take_hundred q).mp hq
      rw [show 3125 = 5 ^ 5 by norm_num] at hd
      exact hqp ((Nat.prime_dvd_prime_iff_eq hq (by norm_num)).mp (hq.dvd_of_dvd_pow hd))

end Algebraics
