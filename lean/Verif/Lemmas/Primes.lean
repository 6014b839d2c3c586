import Verif.Model.Util
import Mathlib.Tactic
import Mathlib.Data.Nat.Prime.Basic

/-!
The prime table is complete and correct: checked by the kernel with gcds against the product of the
primes below 256.
-/

namespace Algebraics

/-- The product of the primes below 256. -/
def primorial256 : ℕ :=
  64266330917908644872330635228106713310880186591609208114244758680898150367880703152525200743234420230

theorem prime_dvd_primorial256 : ∀ n < 256, n.Prime → n ∣ primorial256 := by decide +kernel

theorem primorial256_eq :
    primorial256 = ((List.range 256).filter (fun n => decide (Nat.Prime n))).prod := by
  decide +kernel

theorem le_of_prime_dvd_primorial256 {p : ℕ} (hp : p.Prime) (h : p ∣ primorial256) : p < 256 := by
  rw [primorial256_eq, (Nat.prime_iff.mp hp).dvd_prod_iff] at h
  obtain ⟨a, ha, hpa⟩ := h
  simp only [List.mem_filter, List.mem_range, decide_eq_true_eq] at ha
  rw [(Nat.prime_dvd_prime_iff_eq hp ha.2).mp hpa]
  exact ha.1

theorem prime_iff_gcd {n : ℕ} (h : 256 ≤ n) (h' : n < 65536) :
    n.Prime ↔ Nat.gcd n primorial256 = 1 := by
  constructor
  · intro hp
    rw [← Nat.Coprime, Nat.Prime.coprime_iff_not_dvd hp]
    intro hd
    have := le_of_prime_dvd_primorial256 hp hd
    omega
  · intro hg
    by_contra hp
    have h1 : n ≠ 1 := by omega
    have hm := Nat.minFac_prime h1
    have hsq := Nat.minFac_sq_le_self (by omega : 0 < n) hp
    have hlt : n.minFac < 256 := by nlinarith
    have := Nat.dvd_gcd (Nat.minFac_dvd n) (prime_dvd_primorial256 _ hlt hm)
    rw [hg, Nat.dvd_one] at this
    exact hm.ne_one this

/-- No number strictly between `a` and `a + k + 1` is coprime to the primorial. -/
def gapOk (a : ℕ) : ℕ → Bool
  | 0 => true
  | k + 1 => !(Nat.beq (Nat.gcd (a + (k + 1)) primorial256) 1) && gapOk a k

/-- Walk along the table. -/
def tableOk : ℕ → List ℕ → Bool
  | a, [] => Nat.beq a 65521
  | a, b :: rest =>
    Nat.blt a b && Nat.beq (Nat.gcd b primorial256) 1 && gapOk a (b - a - 1) && tableOk b rest

theorem gapOk_spec {a k : ℕ} (h : gapOk a k = true) :
    ∀ n, a < n → n ≤ a + k → Nat.gcd n primorial256 ≠ 1 := by
  induction k with
  | zero => intro n h1 h2; omega
  | succ k ih =>
    simp only [gapOk, Bool.and_eq_true, Bool.not_eq_true'] at h
    intro n h1 h2
    rcases Nat.lt_or_ge (a + k) n with h3 | h3
    · obtain rfl : n = a + (k + 1) := by omega
      exact Nat.ne_of_beq_eq_false h.1
    · exact ih h.2 n h1 h3

theorem tableOk_spec {l : List ℕ} : ∀ {a : ℕ}, tableOk a l = true →
    (∀ b ∈ l, a < b ∧ b ≤ 65521 ∧ Nat.gcd b primorial256 = 1) ∧
    (∀ n, a < n → n ≤ 65521 → Nat.gcd n primorial256 = 1 → n ∈ l) ∧ l.Pairwise (· < ·) ∧
    a ≤ 65521 := by
  induction l with
  | nil =>
    intro a h
    simp only [tableOk, Nat.beq_eq] at h
    subst h
    exact ⟨by simp, fun n h1 h2 => by omega, List.Pairwise.nil, le_refl _⟩
  | cons b rest ih =>
    intro a h
    simp only [tableOk, Bool.and_eq_true, Nat.beq_eq, Nat.blt_eq] at h
    obtain ⟨⟨⟨h1, h2⟩, h3⟩, h4⟩ := h
    obtain ⟨r1, r2, r3, r4⟩ := ih h4
    refine ⟨?_, ?_, ?_, by omega⟩
    · intro c hc
      rcases List.mem_cons.mp hc with rfl | hc
      · exact ⟨h1, r4, h2⟩
      · have := r1 c hc
        exact ⟨by omega, this.2⟩
    · intro n hn hn' hg
      rcases lt_trichotomy n b with h | h | h
      · exact absurd hg (gapOk_spec h3 n hn (by omega))
      · simp [h]
      · exact List.mem_cons_of_mem _ (r2 n h hn' hg)
    · rw [List.pairwise_cons]
      exact ⟨fun c hc => (r1 c hc).1, r3⟩

theorem table_small : primesThatFitInU16.take 54 =
    (List.range 256).filter (fun n => decide (Nat.Prime n)) := by decide +kernel

theorem table_large : tableOk 255 (primesThatFitInU16.drop 54) = true := by decide +kernel

theorem tail_gap : ∀ n, 65521 < n → n ≤ 65521 + 14 → Nat.gcd n primorial256 ≠ 1 :=
  gapOk_spec (by decide +kernel)

/-- The table is exactly the list of primes below `2 ^ 16`, in increasing order. -/
theorem mem_table_iff (n : ℕ) : n ∈ primesThatFitInU16 ↔ n.Prime ∧ n < 65536 := by
  obtain ⟨l1, l2, -, -⟩ := tableOk_spec table_large
  rw [← List.take_append_drop 54 primesThatFitInU16, List.mem_append, table_small]
  simp only [List.mem_filter, List.mem_range, decide_eq_true_eq]
  constructor
  · rintro (h | h)
    · exact ⟨h.2, by omega⟩
    · obtain ⟨h1, h2, h3⟩ := l1 n h
      exact ⟨(prime_iff_gcd (by omega) (by omega)).mpr h3, by omega⟩
  · rintro ⟨hp, hn⟩
    rcases Nat.lt_or_ge n 256 with h | h
    · exact Or.inl ⟨h, hp⟩
    · right
      have hg := (prime_iff_gcd h hn).mp hp
      refine l2 n (by omega) ?_ hg
      by_contra hlt
      exact tail_gap n (by omega) (by omega) hg

theorem table_pairwise : primesThatFitInU16.Pairwise (· < ·) := by
  obtain ⟨l1, -, l3, -⟩ := tableOk_spec table_large
  rw [← List.take_append_drop 54 primesThatFitInU16, table_small, List.pairwise_append]
  refine ⟨List.Pairwise.filter _ List.pairwise_lt_range, l3, ?_⟩
  intro a ha b hb
  simp only [List.mem_filter, List.mem_range] at ha
  have := (l1 b hb).1
  omega

end Algebraics
