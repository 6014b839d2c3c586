import Verif.Lemmas.Primes

/-!
Properties C49 (primes), C50 (subsets) and C55 (signs) of `/repo/src/util.rs`.
-/

namespace Algebraics

/-! ## C49 -/

/-- What is left to check in the loop of `is_prime_u32`. -/
theorem isPrimeU32Loop_spec (v : ℕ) (h2 : 2 ≤ v) (h32 : v < 2 ^ 32) :
    ∀ (pre suf : List ℕ), pre ++ suf = primesThatFitInU16 → (∀ p ∈ pre, ¬ p ∣ v) →
      isPrimeU32Loop v suf = some (decide v.Prime) := by
  have hprime : ∀ b : ℕ, (∀ p, p.Prime → p < b → p < 65536 → ¬ p ∣ v) → (v < b * b ∨ 65536 ≤ b) →
      v.Prime := by
    intro b hb hvb
    by_contra hv
    have hm := Nat.minFac_prime (by omega : v ≠ 1)
    have hsq := Nat.minFac_sq_le_self (by omega : 0 < v) hv
    have hlt : v.minFac < 65536 := by nlinarith
    refine hb _ hm ?_ hlt (Nat.minFac_dvd v)
    rcases hvb with h | h
    · nlinarith
    · omega
  intro pre suf
  induction suf generalizing pre with
  | nil =>
    intro hs hpre
    rw [List.append_nil] at hs
    subst hs
    rw [isPrimeU32Loop, decide_eq_true (hprime 65536 (fun p hp _ h => hpre p ?_) (Or.inr le_rfl))]
    exact (mem_table_iff p).mpr ⟨hp, h⟩
  | cons q suf ih =>
    intro hs hpre
    have hqm : q ∈ primesThatFitInU16 := by rw [← hs]; simp
    obtain ⟨hq, hq16⟩ := (mem_table_iff q).mp hqm
    rw [isPrimeU32Loop]
    by_cases h1 : v = q
    · rw [if_pos h1, h1, decide_eq_true hq]
    rw [if_neg h1]
    by_cases h3 : v % q = 0
    · rw [if_pos h3, decide_eq_false]
      intro hv
      exact h1 ((Nat.prime_dvd_prime_iff_eq hq hv).mp (Nat.dvd_of_mod_eq_zero h3)).symm
    rw [if_neg h3]
    have hq21 : q ≤ 65521 := by
      obtain ⟨l1, -, -, -⟩ := tableOk_spec table_large
      rw [← List.take_append_drop 54 primesThatFitInU16, List.mem_append, table_small] at hqm
      rcases hqm with h | h
      · simp only [List.mem_filter, List.mem_range] at h; omega
      · exact (l1 q h).2.1
    rw [if_neg (by nlinarith : ¬ 2 ^ 32 ≤ q * q)]
    have hbelow : ∀ p, p.Prime → p < q → p < 65536 → ¬ p ∣ v := by
      intro p hp hlt h16
      apply hpre
      have hpm := (mem_table_iff p).mpr ⟨hp, h16⟩
      have hpw := table_pairwise
      rw [← hs] at hpm hpw
      rcases List.mem_append.mp hpm with h | h
      · exact h
      · rcases List.mem_cons.mp h with h | h
        · omega
        · have := (List.pairwise_cons.mp (List.pairwise_append.mp hpw).2.1).1 p h
          omega
    by_cases h4 : v < q * q
    · rw [if_pos h4, decide_eq_true (hprime q hbelow (Or.inl h4))]
    rw [if_neg h4]
    refine ih (pre ++ [q]) (by simpa using hs) ?_
    intro p hp
    rcases List.mem_append.mp hp with h | h
    · exact hpre p h
    · rw [List.mem_singleton.mp h]
      exact fun hd => h3 (Nat.mod_eq_zero_of_dvd hd)

/-- C49: `is_prime_u32` decides primality, for every `u32`, without overflowing. -/
theorem C49_is_prime (v : ℕ) (h : v < 2 ^ 32) : isPrimeU32 v = some (decide v.Prime) := by
  rw [isPrimeU32]
  by_cases h1 : v ≤ 1
  · rw [if_pos h1, decide_eq_false]
    intro hp
    have := hp.two_le
    omega
  · rw [if_neg h1]
    exact isPrimeU32Loop_spec v (by omega) h [] _ rfl (by simp)

example : isPrimeU32 4294967291 = some true := by decide +kernel
example : isPrimeU32 4293001441 = some false := by decide +kernel -- 65521 ^ 2

theorem prime_4294967291 : Nat.Prime 4294967291 := by
  have h := C49_is_prime 4294967291 (by norm_num)
  rw [show isPrimeU32 4294967291 = some true by decide +kernel] at h
  simpa using h.symm

theorem prime_2147483647 : Nat.Prime 2147483647 := by
  have h := C49_is_prime 2147483647 (by norm_num)
  rw [show isPrimeU32 2147483647 = some true by decide +kernel] at h
  simpa using h.symm

theorem nextPrimeLoop_spec (fuel v P : ℕ) (hP : P.Prime) (hP32 : P < 2 ^ 32) (hodd : v % 2 = 1)
    (hPodd : P % 2 = 1) (h3 : 3 ≤ v) (hvP : v ≤ P) (hfuel : P < fuel + v) :
    ∃ p, nextPrimeLoop fuel v = some p ∧ p.Prime ∧ v ≤ p ∧ p ≤ P ∧
      ∀ q, q.Prime → v ≤ q → p ≤ q := by
  induction fuel generalizing v with
  | zero => omega
  | succ fuel ih =>
    rw [nextPrimeLoop, C49_is_prime v (by omega)]
    by_cases hv : v.Prime
    · rw [decide_eq_true hv]
      exact ⟨v, rfl, hv, le_rfl, hvP, fun q _ h => h⟩
    · rw [decide_eq_false hv]
      have hne : v ≠ P := fun h => hv (h ▸ hP)
      simp only
      rw [if_neg (by omega)]
      obtain ⟨p, h1, h2, h3', h4, h5⟩ := ih (v + 2) (by omega) (by omega) (by omega) (by omega)
      refine ⟨p, h1, h2, by omega, h4, fun q hq hvq => ?_⟩
      rcases Nat.lt_or_ge q (v + 2) with h | h
      · exfalso
        rcases (by omega : q = v ∨ q = v + 1) with rfl | rfl
        · exact hv hq
        · rcases hq.eq_two_or_odd with h | h <;> omega
      · exact h5 q hq h

theorem nextPrimeU32_spec (v P : ℕ) (h2 : 2 ≤ v) (hP : P.Prime) (hP32 : P ≤ 4294967291)
    (hvP : v < P) :
    ∃ p, nextPrimeU32 v = some (some p) ∧ p.Prime ∧ v < p ∧ p ≤ P ∧
      ∀ q, q.Prime → v < q → p ≤ q := by
  have hPodd : P % 2 = 1 := by
    rcases hP.eq_two_or_odd with h | h
    · omega
    · exact h
  rw [nextPrimeU32]
  by_cases h3 : v < 3
  · obtain rfl : v = 2 := by omega
    exact ⟨3, by simp, Nat.prime_three, by omega, by omega, fun q _ h => h⟩
  rw [if_neg h3, if_neg (by omega)]
  by_cases he : v % 2 = 0
  · rw [if_pos he]
    obtain ⟨p, h1, h2, h3, h4, h5⟩ := nextPrimeLoop_spec (2 ^ 32 - v) (v + 1) P hP (by omega)
      (by omega) hPodd (by omega) (by omega) (by omega)
    exact ⟨p, by rw [h1]; rfl, h2, by omega, h4, fun q hq h => h5 q hq h⟩
  · rw [if_neg he]
    obtain ⟨p, h1, h2, h3, h4, h5⟩ := nextPrimeLoop_spec (2 ^ 32 - v) (v + 2) P hP (by omega)
      (by omega) hPodd (by omega) (by omega) (by omega)
    refine ⟨p, by rw [h1]; rfl, h2, by omega, h4, fun q hq h => ?_⟩
    rcases hq.eq_two_or_odd with h' | h'
    · omega
    · exact h5 q hq (by omega)

theorem no_prime_above : ∀ q, 4294967291 < q → q < 2 ^ 32 → ¬ q.Prime := by
  intro q h1 h2 hq
  have := C49_is_prime q h2
  rw [decide_eq_true hq] at this
  have hcases : q = 4294967292 ∨ q = 4294967293 ∨ q = 4294967294 ∨ q = 4294967295 := by omega
  rcases hcases with rfl | rfl | rfl | rfl <;> revert this <;> decide +kernel

/-- C49: from 2 on, `next_prime_u32` returns the least prime above its argument, and `None`
exactly when no `u32` prime is left. -/
theorem C49_next_prime_u32 (v : ℕ) (h2 : 2 ≤ v) (h32 : v < 2 ^ 32) :
    (∃ p, nextPrimeU32 v = some (some p) ∧ p < 2 ^ 32 ∧ p.Prime ∧ v < p ∧
        ∀ q, q.Prime → v < q → p ≤ q) ∨
      (nextPrimeU32 v = some none ∧ ∀ q, q < 2 ^ 32 → v < q → ¬ q.Prime) := by
  rcases Nat.lt_or_ge v 4294967291 with h | h
  · obtain ⟨p, h1, h2, h3, h4, h5⟩ := nextPrimeU32_spec v _ h2 prime_4294967291 le_rfl h
    exact Or.inl ⟨p, h1, by omega, h2, h3, h5⟩
  · refine Or.inr ⟨?_, fun q hq hv => no_prime_above q (by omega) hq⟩
    rw [nextPrimeU32, if_neg (by omega), if_pos h]

example : nextPrimeU32 65521 = some (some 65537) := by decide +kernel

/-- C49: below 2 the answer is 3, the least odd prime, so the prime 2 is skipped. -/
theorem C49_next_prime_u32_small (v : ℕ) (h : v < 2) : nextPrimeU32 v = some (some 3) := by
  rw [nextPrimeU32, if_pos (by omega)]

/-- C49: the same for `next_prime_i32`; a negative argument counts as 0. -/
theorem C49_next_prime_i32 (v : ℤ) (h31 : v < 2 ^ 31) :
    (∃ p : ℕ, nextPrimeI32 v = some (some (p : ℤ)) ∧ (p : ℤ) < 2 ^ 31 ∧ p.Prime ∧ p ≠ 2 ∧
        v < p ∧ ∀ q : ℕ, q.Prime → q ≠ 2 → v < q → p ≤ q) ∨
      (nextPrimeI32 v = some none ∧ ∀ q : ℕ, (q : ℤ) < 2 ^ 31 → v < q → ¬ q.Prime) := by
  rw [nextPrimeI32]
  by_cases hbig : 2147483647 ≤ v
  · rw [if_pos hbig]
    exact Or.inr ⟨rfl, fun q h1 h2 => by omega⟩
  left
  rw [if_neg hbig]
  rcases lt_or_ge v 2 with h | h
  · rw [nextPrimeU32, if_pos (by omega)]
    refine ⟨3, by simp [castI32], by norm_num, Nat.prime_three, by norm_num, by push_cast; omega, ?_⟩
    intro q hq h2 _
    have := hq.two_le
    omega
  · obtain ⟨p, h1, h2, h3, h4, h5⟩ := nextPrimeU32_spec (max v 0).toNat _ (by omega)
      prime_2147483647 (by norm_num) (by omega)
    refine ⟨p, ?_, by omega, h2, by omega, by omega, fun q hq _ h => h5 q hq (by omega)⟩
    rw [h1]
    simp only [Option.map_some, castI32]
    rw [if_pos (by omega)]

example : nextPrimeI32 (-5) = some (some 3) := by decide +kernel
example : nextPrimeI32 3 = some (some 5) := by decide +kernel
example : nextPrimeI32 2147483646 = some (some 2147483647) := by decide +kernel

theorem prevPrimeLoop_spec (fuel v : ℕ) (h32 : v < 2 ^ 32) (hodd : v % 2 = 1) (h3 : 3 ≤ v)
    (hfuel : v < fuel + 3) :
    ∃ p, prevPrimeLoop fuel v = some p ∧ p.Prime ∧ p ≤ v ∧ ∀ q, q.Prime → q ≤ v → q ≤ p := by
  induction fuel generalizing v with
  | zero => omega
  | succ fuel ih =>
    rw [prevPrimeLoop, C49_is_prime v h32]
    by_cases hv : v.Prime
    · rw [decide_eq_true hv]
      exact ⟨v, rfl, hv, le_rfl, fun q _ h => h⟩
    · rw [decide_eq_false hv]
      have hne : v ≠ 3 := fun h => hv (h ▸ Nat.prime_three)
      simp only
      rw [if_neg (by omega)]
      obtain ⟨p, h1, h2, h3', h4⟩ := ih (v - 2) (by omega) (by omega) (by omega) (by omega)
      refine ⟨p, h1, h2, by omega, fun q hq hvq => ?_⟩
      rcases Nat.lt_or_ge (v - 2) q with h | h
      · exfalso
        rcases (by omega : q = v ∨ q = v - 1) with rfl | rfl
        · exact hv hq
        · rcases hq.eq_two_or_odd with h | h <;> omega
      · exact h4 q hq h

/-- C49: `prev_prime_u32` returns the greatest prime below its argument, and `None` exactly when
there is none. -/
theorem C49_prev_prime_u32 (v : ℕ) (h32 : v < 2 ^ 32) :
    (∃ p, prevPrimeU32 v = some (some p) ∧ p.Prime ∧ p < v ∧ ∀ q, q.Prime → q < v → q ≤ p) ∨
      (prevPrimeU32 v = some none ∧ ∀ q, q < v → ¬ q.Prime) := by
  rw [prevPrimeU32]
  by_cases h2 : v ≤ 2
  · rw [if_pos h2]
    exact Or.inr ⟨rfl, fun q h hq => by have := hq.two_le; omega⟩
  left
  rw [if_neg h2]
  by_cases h3 : v = 3
  · rw [if_pos h3]
    exact ⟨2, rfl, Nat.prime_two, by omega, fun q _ h => by omega⟩
  rw [if_neg h3]
  have hor : v ||| 1 = if v % 2 = 1 then v else v + 1 := by
    have := Nat.or_mod_two_pow (a := v) (b := 1) (n := 1)
    apply Nat.eq_of_testBit_eq
    intro i
    cases i with
    | zero =>
      rw [Nat.testBit_or]
      split_ifs with h
      · simp [Nat.testBit_zero, h]
      · simp [Nat.testBit_zero]; omega
    | succ i =>
      rw [Nat.testBit_or, Nat.testBit_succ, Nat.testBit_succ, Nat.testBit_succ]
      split_ifs with h
      · simp
      · rw [show (v + 1) / 2 = v / 2 by omega]
        simp
  rw [hor]
  by_cases h : v % 2 = 1
  · rw [if_pos h]
    obtain ⟨p, h1, h2', h3', h4⟩ := prevPrimeLoop_spec v (v - 2) (by omega) (by omega) (by omega)
      (by omega)
    refine ⟨p, by rw [h1]; rfl, h2', by omega, fun q hq hqv => ?_⟩
    rcases hq.eq_two_or_odd with h' | h'
    · have := h4 3 Nat.prime_three (by omega)
      omega
    · exact h4 q hq (by omega)
  · rw [if_neg h]
    obtain ⟨p, h1, h2', h3', h4⟩ := prevPrimeLoop_spec v (v + 1 - 2) (by omega) (by omega)
      (by omega) (by omega)
    exact ⟨p, by rw [h1]; rfl, h2', by omega, fun q hq hqv => h4 q hq (by omega)⟩

/-- C49: the same for `prev_prime_i32`. -/
theorem C49_prev_prime_i32 (v : ℤ) (h31 : v < 2 ^ 31) :
    (∃ p : ℕ, prevPrimeI32 v = some (some (p : ℤ)) ∧ p.Prime ∧ (p : ℤ) < v ∧
        ∀ q : ℕ, q.Prime → (q : ℤ) < v → q ≤ p) ∨
      (prevPrimeI32 v = some none ∧ ∀ q : ℕ, (q : ℤ) < v → ¬ q.Prime) := by
  rw [prevPrimeI32]
  by_cases h : v < 0
  · rw [if_pos h]
    exact Or.inr ⟨rfl, fun q hq => by omega⟩
  rw [if_neg h]
  rcases C49_prev_prime_u32 v.toNat (by omega) with ⟨p, h1, h2, h3, h4⟩ | ⟨h1, h2⟩
  · exact Or.inl ⟨p, by rw [h1]; rfl, h2, by omega, fun q hq hv => h4 q hq (by omega)⟩
  · exact Or.inr ⟨by rw [h1]; rfl, fun q hq => h2 q (by omega)⟩

example : prevPrimeI32 2147483647 = some (some 2147483629) := by decide +kernel
example : prevPrimeU32 4 = some (some 3) := by decide +kernel

/-! ## C50 -/

theorem forUntilBreak_append {σ τ ι : Type*} (body : ι → σ → σ × Option τ) (a b : List ι) (s : σ) :
    forUntilBreak body (a ++ b) s =
      match forUntilBreak body a s with
      | (s', some t) => (s', some t)
      | (s', none) => forUntilBreak body b s' := by
  induction a generalizing s with
  | nil => rfl
  | cons x a ih =>
    rw [List.cons_append, forUntilBreak, forUntilBreak]
    rcases h : body x s with ⟨s', _ | t⟩
    · exact ih s'
    · rfl

theorem forUntilBreak_flatMap {σ τ ι κ : Type*} (body : κ → σ → σ × Option τ) (f : ι → List κ)
    (l : List ι) (s : σ) :
    forUntilBreak body (l.flatMap f) s = forUntilBreak (fun i => forUntilBreak body (f i)) l s := by
  induction l generalizing s with
  | nil => rfl
  | cons x l ih =>
    rw [List.flatMap_cons, forUntilBreak_append, forUntilBreak]
    rcases forUntilBreak body (f x) s with ⟨s', _ | t⟩
    · exact ih s'
    · rfl

theorem forUntilBreak_map {σ τ ι κ : Type*} (body : κ → σ → σ × Option τ) (f : ι → κ)
    (l : List ι) (s : σ) :
    forUntilBreak body (l.map f) s = forUntilBreak (fun i => body (f i)) l s := by
  induction l generalizing s with
  | nil => rfl
  | cons x l ih =>
    rw [List.map_cons, forUntilBreak, forUntilBreak]
    rcases body (f x) s with ⟨s', _ | t⟩
    · exact ih s'
    · rfl

/-- The index tuples in the order of the code. -/
def subsetList : ℕ → ℕ → ℕ → List (List ℕ)
  | 0, _, _ => [[]]
  | left + 1, start, stop =>
    if left + 1 ≤ stop then
      (List.range' start (stop - (left + 1) + 1 - start)).flatMap fun i =>
        (subsetList left (i + 1) stop).map (i :: ·)
    else []

theorem subsetsHelper_eq {σ τ : Type*} (callback : List ℕ → σ → σ × Option τ) (left : ℕ) :
    ∀ (pre : List ℕ) (start stop : ℕ) (s : σ),
      subsetsHelper callback left pre start stop s =
        forUntilBreak callback ((subsetList left start stop).map (pre ++ ·)) s := by
  induction left with
  | zero =>
    intro pre start stop s
    rw [subsetsHelper, subsetList, List.map_singleton, forUntilBreak, List.append_nil]
    rcases callback pre s with ⟨s', _ | t⟩ <;> rfl
  | succ left ih =>
    intro pre start stop s
    rw [subsetsHelper, subsetList]
    by_cases h : left + 1 ≤ stop
    · rw [if_pos h, if_pos h, List.map_flatMap, forUntilBreak_flatMap]
      congr 1
      funext i s
      rw [ih, List.map_map]
      congr 2
      funext l
      simp
    · rw [if_neg h, if_neg h]
      rfl

theorem mem_subsetList (left : ℕ) : ∀ (start stop : ℕ) (l : List ℕ),
    l ∈ subsetList left start stop ↔
      l.length = left ∧ l.Pairwise (· < ·) ∧ ∀ x ∈ l, start ≤ x ∧ x < stop := by
  induction left with
  | zero =>
    intro start stop l
    rw [subsetList, List.mem_singleton, List.length_eq_zero_iff]
    constructor
    · rintro rfl; simp
    · exact fun h => h.1
  | succ left ih =>
    intro start stop l
    rw [subsetList]
    constructor
    · intro h
      by_cases hs : left + 1 ≤ stop
      · rw [if_pos hs, List.mem_flatMap] at h
        obtain ⟨i, hi, hl⟩ := h
        rw [List.mem_map] at hl
        obtain ⟨t, ht, rfl⟩ := hl
        obtain ⟨h1, h2, h3⟩ := (ih _ _ _).mp ht
        rw [List.mem_range'_1] at hi
        refine ⟨by simp [h1], List.pairwise_cons.mpr ⟨fun x hx => ?_, h2⟩, fun x hx => ?_⟩
        · have := h3 x hx; omega
        · rcases List.mem_cons.mp hx with rfl | hx
          · omega
          · have := h3 x hx; omega
      · rw [if_neg hs] at h
        simp at h
    · rintro ⟨h1, h2, h3⟩
      cases l with
      | nil => simp at h1
      | cons i t =>
        rw [List.pairwise_cons] at h2
        have ht : t ∈ subsetList left (i + 1) stop :=
          (ih _ _ _).mpr ⟨by simpa using h1, h2.2, fun x hx =>
            ⟨h2.1 x hx, (h3 x (List.mem_cons_of_mem _ hx)).2⟩⟩
        have hi := h3 i (List.mem_cons_self ..)
        have hlen : left + 1 + i ≤ stop := by
          have key : ∀ (t : List ℕ) (i : ℕ), (∀ x ∈ t, i < x ∧ x < stop) → t.Pairwise (· < ·) →
              i < stop → t.length + 1 + i ≤ stop := by
            intro t
            induction t with
            | nil => intro i _ _ h; simp; omega
            | cons a t iht =>
              intro i h1 h2 h3
              rw [List.pairwise_cons] at h2
              have ha := h1 a (List.mem_cons_self ..)
              have := iht a (fun x hx => ⟨h2.1 x hx, (h1 x (List.mem_cons_of_mem _ hx)).2⟩) h2.2
                ha.2
              simp only [List.length_cons]
              omega
          have := key t i (fun x hx => ⟨h2.1 x hx, (h3 x (List.mem_cons_of_mem _ hx)).2⟩) h2.2 hi.2
          simp only [List.length_cons] at h1
          omega
        rw [if_pos (by omega), List.mem_flatMap]
        refine ⟨i, List.mem_range'_1.mpr (by omega), List.mem_map.mpr ⟨t, ht, rfl⟩⟩

theorem subsetList_pairwise (left : ℕ) : ∀ (start stop : ℕ),
    (subsetList left start stop).Pairwise (List.Lex (· < ·)) := by
  induction left with
  | zero => intro start stop; rw [subsetList]; exact List.pairwise_singleton _ _
  | succ left ih =>
    intro start stop
    rw [subsetList]
    by_cases hs : left + 1 ≤ stop
    · rw [if_pos hs, List.pairwise_flatMap]
      constructor
      · intro i _
        rw [List.pairwise_map]
        exact (ih (i + 1) stop).imp fun h => List.Lex.cons h
      · refine (List.pairwise_lt_range' (step := 1)).imp ?_
        intro i j hij a ha b hb
        rw [List.mem_map] at ha hb
        obtain ⟨a, -, rfl⟩ := ha
        obtain ⟨b, -, rfl⟩ := hb
        exact List.Lex.rel hij
    · rw [if_neg hs]; exact List.Pairwise.nil

/-- C50: `for_subsets_of_size` calls the callback on each strictly increasing index tuple of the
given size in the range, once each, in lexicographic order, and stops at the first break.  (The
callback is any function on any state; `forUntilBreak` runs it on a list.) -/
theorem C50_subsets (size start stop : ℕ) (h : start < stop ∨ 0 < size) :
    ∃ L : List (List ℕ),
      (∀ l, l ∈ L ↔ l.length = size ∧ l.Pairwise (· < ·) ∧ ∀ x ∈ l, start ≤ x ∧ x < stop) ∧
      L.Pairwise (List.Lex (· < ·)) ∧
      ∀ {σ τ : Type} (callback : List ℕ → σ → σ × Option τ) (s : σ),
        forSubsetsOfSize callback size start stop s = forUntilBreak callback L s := by
  refine ⟨subsetList size start stop, mem_subsetList size start stop,
    subsetList_pairwise size start stop, ?_⟩
  intro σ τ callback s
  rw [forSubsetsOfSize]
  by_cases hc : stop ≤ start ∨ stop - start < size
  · rw [if_pos hc]
    have : subsetList size start stop = [] := by
      rw [List.eq_nil_iff_forall_not_mem]
      intro l hl
      obtain ⟨h1, h2, h3⟩ := (mem_subsetList _ _ _ _).mp hl
      have hsub : l.toFinset ⊆ Finset.Ico start stop := by
        intro x hx
        rw [Finset.mem_Ico]
        exact h3 x (List.mem_toFinset.mp hx)
      have hcard := Finset.card_le_card hsub
      rw [List.toFinset_card_of_nodup (h2.imp fun h => ne_of_lt h), Nat.card_Ico] at hcard
      omega
    rw [this]
    rfl
  · rw [if_neg hc, subsetsHelper_eq]
    simp

/-- Non-vacuity: the two-element subsets of `0..3`, stopping never and stopping at `[0, 2]`. -/
example : forSubsetsOfSize (τ := Unit) (fun l s => (s ++ [l], none)) 2 0 3 [] =
    ([[0, 1], [0, 2], [1, 2]], none) := by decide +kernel
example : forSubsetsOfSize (fun l s => (s ++ [l], if l = [0, 2] then some 7 else none)) 2 0 3 [] =
    ([[0, 1], [0, 2]], some 7) := by decide +kernel

/-- C50: in the one remaining case, size 0 in an empty range, the callback is not called at all,
although the empty tuple qualifies. -/
theorem C50_empty_range {σ τ : Type} (callback : List ℕ → σ → σ × Option τ) (start stop : ℕ)
    (h : stop ≤ start) (s : σ) : forSubsetsOfSize callback 0 start stop s = (s, none) := by
  rw [forSubsetsOfSize, if_pos (Or.inl h)]

/-! ## C55 -/

/-- C55: the sign of a product is the exclusive or of the signs, negation flips the sign, and signs
are ordered like the numbers. -/
theorem C55_sign {α : Type*} [Ring α] [LinearOrder α] [IsStrictOrderedRing α] (a b : α) :
    (Sign.new a = none ↔ a = 0) ∧ (Sign.new a = some .negative ↔ a < 0) ∧
    (Sign.new a = some .positive ↔ 0 < a) ∧
    (∀ s t, Sign.new a = some s → Sign.new b = some t → Sign.new (a * b) = some (s.xor t)) ∧
    Sign.new (-a) = (Sign.new a).map Sign.neg ∧
    (∀ s t, Sign.new a = some s → Sign.new b = some t → s.cmp t = .lt → a < b) := by
  have hsign : ∀ a : α, (Sign.new a = none ↔ a = 0) ∧ (Sign.new a = some .negative ↔ a < 0) ∧
      (Sign.new a = some .positive ↔ 0 < a) := by
    intro a
    rw [Sign.new]
    rcases lt_trichotomy a 0 with h | h | h
    · simp [h, h.ne, not_lt_of_gt h]
    · simp [h]
    · simp [h, h.ne', not_lt_of_gt h]
  obtain ⟨h1, h2, h3⟩ := hsign a
  obtain ⟨g1, g2, g3⟩ := hsign b
  refine ⟨h1, h2, h3, ?_, ?_, ?_⟩
  · intro s t hs ht
    obtain ⟨-, p2, p3⟩ := hsign (a * b)
    cases s <;> cases t <;> simp only [h2, h3, g2, g3] at hs ht <;>
      simp only [Sign.xor, Sign.toBool, Sign.ofBool, Bool.xor_self, Bool.xor_false, Bool.xor_true,
        Bool.not_false, Bool.false_eq_true, if_true, if_false, p2, p3]
    · exact mul_pos_of_neg_of_neg hs ht
    · exact mul_neg_of_neg_of_pos hs ht
    · exact mul_neg_of_pos_of_neg hs ht
    · exact mul_pos hs ht
  · obtain ⟨n1, n2, n3⟩ := hsign (-a)
    rcases lt_trichotomy a 0 with h | h | h
    · rw [h2.mpr h, n3.mpr (by simpa using h)]; rfl
    · rw [h1.mpr h, n1.mpr (by simpa using h)]; rfl
    · rw [h3.mpr h, n2.mpr (by simpa using h)]; rfl
  · intro s t hs ht hc
    cases s <;> cases t <;> simp only [Sign.cmp, reduceCtorEq] at hc
    exact (h2.mp hs).trans (g3.mp ht)

/-- C55: the sign stands for the truth value "is negative": conversion to and from truth values are inverse to
each other, `&`, `|` and `^` are the operations on truth values, and `<` puts negative before positive. -/
theorem C55_sign_bool (s t : Sign) (b : Bool) :
    (Sign.ofBool b).toBool = b ∧ Sign.ofBool s.toBool = s ∧ (s.toBool = true ↔ s = .negative) ∧
    ((s.and t).toBool = true ↔ s = .negative ∧ t = .negative) ∧
    ((s.or t).toBool = true ↔ s = .negative ∨ t = .negative) ∧
    ((s.xor t).toBool = true ↔ s ≠ t) ∧ s.neg ≠ s ∧
    (s.cmp t = .lt ↔ s = .negative ∧ t = .positive) ∧ (s.cmp t = .eq ↔ s = t) ∧
    (s.cmp t = .gt ↔ t.cmp s = .lt) := by
  cases s <;> cases t <;> cases b <;> decide

example : Sign.new (-3 : ℤ) = some .negative ∧ Sign.new ((-3 : ℤ) * 5) = some .negative := by
  decide +kernel

end Algebraics
