import Mathlib.NumberTheory.Real.Irrational
import Mathlib.Tactic.LinearCombination
import Mathlib.Tactic.FieldSimp
import Verif.Spec.Quadratic

/-!
Lemmas about quadratic numbers (`/repo/src/quadratic_numbers.rs`).
-/

namespace Algebraics

namespace Quad

theorem bigIntSqrt_spec (D : ℤ) (hD : 0 ≤ D) :
    ∃ s, DFI.bigIntSqrt D = some s ∧ 0 ≤ s ∧ (s * s = D ↔ IsSquare D) := by
  refine ⟨(Nat.sqrt D.toNat : ℤ), ?_, by positivity, ?_⟩
  · unfold DFI.bigIntSqrt; rw [if_neg (not_lt.mpr hD)]
  · constructor
    · intro h; exact ⟨_, h.symm⟩
    · rintro ⟨r, hr⟩
      have h1 : D.toNat = r.natAbs * r.natAbs := by
        rw [hr]; zify; rw [Int.toNat_of_nonneg (mul_self_nonneg r)]; exact (abs_mul_abs_self r).symm
      rw [h1, Nat.sqrt_eq, hr]
      exact_mod_cast Int.natAbs_mul_self' r

theorem gcd2_mul {n d n' d' : ℤ} (g : ℤ) (hn : n = g * n') (hd : d = g * d') :
    Int.gcd n d = g.natAbs * Int.gcd n' d' := by
  rw [hn, hd, Int.gcd_mul_left]

theorem gcd3_mul {c b a c' b' a' : ℤ} (g : ℤ) (hc : c = g * c') (hb : b = g * b') (ha : a = g * a') :
    Int.gcd (Int.gcd c b) a = g.natAbs * Int.gcd (Int.gcd c' b') a' := by
  rw [hc, hb, ha]
  unfold Int.gcd
  simp only [Int.natAbs_mul, Int.natAbs_natCast, Nat.gcd_mul_left]

theorem fromRatioNonInf_spec (n d : ℤ) (hd : d ≠ 0) :
    (fromRatioNonInf n d).Canonical ∧ (fromRatioNonInf n d).value = (n : ℝ) / d := by
  have hg : (Int.gcd n d : ℤ) ≠ 0 := by
    have := Int.gcd_pos_of_ne_zero_right n hd
    omega
  obtain ⟨n', hn⟩ : (Int.gcd n d : ℤ) ∣ n := Int.gcd_dvd_left ..
  obtain ⟨d', hd'⟩ : (Int.gcd n d : ℤ) ∣ d := Int.gcd_dvd_right ..
  have hcop : Int.gcd n' d' = 1 := by
    have h1 := gcd2_mul _ hn hd'
    rw [Int.natAbs_natCast] at h1
    have h2 : 0 < Int.gcd n d := Int.gcd_pos_of_ne_zero_right n hd
    exact (Nat.mul_eq_left h2.ne').mp h1.symm
  have hgpos : 0 < (Int.gcd n d : ℤ) := by
    have := Int.gcd_pos_of_ne_zero_right n hd
    exact_mod_cast this
  generalize hG : (Int.gcd n d : ℤ) = G at *
  have e1 : n.tdiv G = n' := by rw [hn]; exact Int.mul_tdiv_cancel_left _ hg
  have e2 : d.tdiv G = d' := by rw [hd']; exact Int.mul_tdiv_cancel_left _ hg
  have hd0 : d' ≠ 0 := by rintro rfl; rw [mul_zero] at hd'; exact hd hd'
  have hval : (n : ℝ) / d = (n' : ℝ) / d' := by
    rw [hn, hd']
    push_cast
    have : (G : ℝ) ≠ 0 := by exact_mod_cast hg
    have : (d' : ℝ) ≠ 0 := by exact_mod_cast hd0
    field_simp
  unfold fromRatioNonInf Poly.intGcd
  simp only [hG]
  by_cases hneg : d < 0
  · rw [if_pos hneg, Int.tdiv_neg, e1, e2]
    have hd'neg : d' < 0 := by
      by_contra h
      push Not at h
      have := mul_nonneg hgpos.le h
      omega
    refine ⟨Or.inl ⟨rfl, by show 0 < -d'; omega, ?_⟩, ?_⟩
    · show Int.gcd n' (-d') = 1
      rw [Int.gcd_neg]; exact hcop
    · rw [hval]
      simp only [value, fromNegatedReducedRatio, if_true]
      push_cast
      rw [neg_div_neg_eq]
  · rw [if_neg hneg, Int.tdiv_neg, e1, e2]
    have hd'pos : 0 < d' := by
      by_contra h
      have h2 : d' < 0 := by omega
      have := mul_neg_of_pos_of_neg hgpos h2
      omega
    refine ⟨Or.inl ⟨rfl, hd'pos, ?_⟩, ?_⟩
    · show Int.gcd (-n') d' = 1
      rw [Int.neg_gcd]; exact hcop
    · rw [hval]
      simp only [value, fromNegatedReducedRatio, if_true]
      push_cast
      rw [neg_neg]

theorem fromRatio_spec (n d : ℤ) (hd : d ≠ 0) :
    ∃ y, fromRatio n d = some y ∧ y.Canonical ∧ y.value = (n : ℝ) / d := by
  refine ⟨_, ?_, fromRatioNonInf_spec n d hd⟩
  unfold fromRatio; rw [if_neg hd]

theorem discriminant_eq (x : Quad) :
    x.discriminant = x.linearTerm ^ 2 - 4 * x.quadraticTerm * x.constantTerm := by
  unfold discriminant; ring

/-- the polynomial times a positive factor stands for the same number -/
theorem value_scale (a b c g : ℤ) (hg : 0 < g) :
    value ⟨g * c, g * b, g * a⟩ = value ⟨c, b, a⟩ := by
  have hgR : (0 : ℝ) < g := by exact_mod_cast hg
  unfold value
  simp only [mul_eq_zero, hg.ne', false_or]
  by_cases ha : a = 0
  · rw [if_pos ha, if_pos ha]
    push_cast
    rw [← mul_neg, mul_div_mul_left _ _ hgR.ne']
  · rw [if_neg ha, if_neg ha]
    push_cast
    have h1 : ((g : ℝ) * b) ^ 2 - 4 * (g * a) * (g * c) = g ^ 2 * (b ^ 2 - 4 * a * c) := by ring
    rw [h1, Real.sqrt_mul (by positivity), Real.sqrt_sq hgR.le]
    have h2 : (a : ℝ) ≠ 0 := by exact_mod_cast ha
    field_simp

theorem intoReduced_spec (x : Quad) (hx : x.HasValue) :
    ∃ y, x.intoReduced = some y ∧ y.Canonical ∧ y.value = x.value := by
  obtain ⟨c, b, a⟩ := x
  obtain ⟨hx1, hx2⟩ := hx
  simp only at hx1 hx2
  unfold intoReduced
  simp only
  by_cases ha : a = 0
  · rw [if_pos ha]
    obtain ⟨y, h1, h2, h3⟩ := fromRatio_spec (-c) b (hx1 ha)
    refine ⟨y, h1, h2, ?_⟩
    rw [h3]
    simp only [value, if_pos ha]
    push_cast
    rfl
  · rw [if_neg ha]
    have hgpos : 0 < (Int.gcd (Int.gcd c b) a : ℤ) := by
      exact_mod_cast Int.gcd_pos_of_ne_zero_right _ ha
    have hdc : (Int.gcd (Int.gcd c b) a : ℤ) ∣ c :=
      (Int.gcd_dvd_left ..).trans (Int.gcd_dvd_left ..)
    have hdb : (Int.gcd (Int.gcd c b) a : ℤ) ∣ b :=
      (Int.gcd_dvd_left ..).trans (Int.gcd_dvd_right ..)
    have hda : (Int.gcd (Int.gcd c b) a : ℤ) ∣ a := Int.gcd_dvd_right ..
    obtain ⟨c', hc⟩ := hdc
    obtain ⟨b', hb⟩ := hdb
    obtain ⟨a', ha'⟩ := hda
    have hcop : Int.gcd (Int.gcd c' b') a' = 1 := by
      have h1 := gcd3_mul _ hc hb ha'
      rw [Int.natAbs_natCast] at h1
      have h2 : 0 < Int.gcd (Int.gcd c b) a := Int.gcd_pos_of_ne_zero_right _ ha
      exact (Nat.mul_eq_left h2.ne').mp h1.symm
    unfold Poly.intGcd
    generalize (Int.gcd (Int.gcd c b) a : ℤ) = G at *
    have hG : G ≠ 0 := hgpos.ne'
    have e1 : c.tdiv G = c' := by rw [hc]; exact Int.mul_tdiv_cancel_left _ hG
    have e2 : b.tdiv G = b' := by rw [hb]; exact Int.mul_tdiv_cancel_left _ hG
    have e3 : a.tdiv G = a' := by rw [ha']; exact Int.mul_tdiv_cancel_left _ hG
    have ha0 : a' ≠ 0 := by rintro rfl; rw [mul_zero] at ha'; exact ha ha'
    have hD : 0 ≤ b' ^ 2 - 4 * a' * c' := by
      rw [hc, hb, ha'] at hx2
      have h1 : (G * b') ^ 2 - 4 * (G * a') * (G * c') = G ^ 2 * (b' ^ 2 - 4 * a' * c') := by ring
      rw [h1] at hx2
      exact nonneg_of_mul_nonneg_right hx2 (by positivity)
    have hval : value ⟨c, b, a⟩ = value ⟨c', b', a'⟩ := by
      rw [hc, hb, ha']; exact value_scale a' b' c' G hgpos
    rw [e1, e2, e3, hval]
    have hdisc : discriminant ⟨c', b', a'⟩ = b' ^ 2 - 4 * a' * c' := discriminant_eq _
    rw [hdisc, if_neg (not_lt.mpr hD)]
    obtain ⟨s, hs1, hs2, hs3⟩ := bigIntSqrt_spec _ hD
    rw [hs1]
    simp only [Option.bind_eq_bind, Option.bind_some]
    by_cases hsq : s * s = b' ^ 2 - 4 * a' * c'
    · rw [if_pos hsq]
      obtain ⟨y, h1, h2, h3⟩ := fromRatio_spec (-b' + s) (2 * a') (by simpa using ha0)
      refine ⟨y, h1, h2, ?_⟩
      rw [h3]
      simp only [value, if_neg ha0]
      have h4 : (b' : ℝ) ^ 2 - 4 * a' * c' = (s : ℝ) ^ 2 := by
        have : ((s * s : ℤ) : ℝ) = ((b' ^ 2 - 4 * a' * c' : ℤ) : ℝ) := by rw [hsq]
        push_cast at this
        rw [← this, sq]
      rw [h4, Real.sqrt_sq (by exact_mod_cast hs2)]
      push_cast
      rfl
    · rw [if_neg hsq]
      exact ⟨_, rfl, Or.inr ⟨ha0, hD, fun h => hsq (hs3.mpr h), hcop⟩, rfl⟩

/-! ### canonical numbers -/

theorem Canonical.hasValue {x : Quad} (h : x.Canonical) : x.HasValue := by
  rcases h with ⟨h1, h2, -⟩ | ⟨h1, h2, -⟩
  · refine ⟨fun _ => h2.ne', ?_⟩
    rw [h1]; simp; positivity
  · exact ⟨fun h => absurd h h1, h2⟩

theorem value_of_ne {x : Quad} (h : x.quadraticTerm ≠ 0) :
    x.value = (-(x.linearTerm : ℝ) + √((x.linearTerm : ℝ) ^ 2 - 4 * x.quadraticTerm * x.constantTerm)) /
    (2 * x.quadraticTerm) := by
  unfold value; rw [if_neg h]

theorem value_root {x : Quad} (h : x.quadraticTerm ≠ 0)
    (hD : 0 ≤ x.linearTerm ^ 2 - 4 * x.quadraticTerm * x.constantTerm) :
    (x.quadraticTerm : ℝ) * x.value ^ 2 + x.linearTerm * x.value + x.constantTerm = 0 := by
  have hD' : (0 : ℝ) ≤ (x.linearTerm : ℝ) ^ 2 - 4 * x.quadraticTerm * x.constantTerm := by exact_mod_cast hD
  have h1 : (x.quadraticTerm : ℝ) ≠ 0 := by exact_mod_cast h
  rw [value_of_ne h]
  have h2 := Real.sq_sqrt hD'
  generalize √((x.linearTerm : ℝ) ^ 2 - 4 * x.quadraticTerm * x.constantTerm) = S at *
  field_simp
  linear_combination h2

theorem sqrt_irrational {D : ℤ} (h0 : 0 ≤ D) (h : ¬ IsSquare D) : Irrational (√(D : ℝ)) :=
  irrational_sqrt_intCast_iff.mpr ⟨h, h0⟩

theorem value_irrational {x : Quad} (h : x.Canonical) (ha : x.quadraticTerm ≠ 0) : Irrational x.value := by
  rcases h with ⟨h1, -⟩ | ⟨-, h2, h3, -⟩
  · exact absurd h1 ha
  · have h4 := sqrt_irrational h2 h3
    push_cast at h4
    rintro ⟨q, hq⟩
    apply h4
    rw [value_of_ne ha] at hq
    refine ⟨q * (2 * x.quadraticTerm) + x.linearTerm, ?_⟩
    have h5 : (x.quadraticTerm : ℝ) ≠ 0 := by exact_mod_cast ha
    rw [eq_div_iff (by simpa using h5)] at hq
    push_cast
    linarith

/-- the same number has only one canonical form -/
theorem canonical_unique {x y : Quad} (hx : x.Canonical) (hy : y.Canonical) (h : x.value = y.value) :
    x = y := by
  by_cases hxa : x.quadraticTerm = 0
  · by_cases hya : y.quadraticTerm = 0
    · rcases hx with ⟨-, hx1, hx2⟩ | ⟨h1, -⟩
      · rcases hy with ⟨-, hy1, hy2⟩ | ⟨h1, -⟩
        · unfold value at h
          rw [if_pos hxa, if_pos hya] at h
          have h' : ((-x.constantTerm : ℤ) : ℚ) / (x.linearTerm : ℤ) =
              ((-y.constantTerm : ℤ) : ℚ) / (y.linearTerm : ℤ) := by
            push_cast
            exact_mod_cast h
          have nx := Rat.num_div_eq_of_coprime (a := -x.constantTerm) hx1
            (by rw [Int.natAbs_neg]; exact hx2)
          have ny := Rat.num_div_eq_of_coprime (a := -y.constantTerm) hy1
            (by rw [Int.natAbs_neg]; exact hy2)
          have dx := Rat.den_div_eq_of_coprime (a := -x.constantTerm) hx1
            (by rw [Int.natAbs_neg]; exact hx2)
          have dy := Rat.den_div_eq_of_coprime (a := -y.constantTerm) hy1
            (by rw [Int.natAbs_neg]; exact hy2)
          rw [h'] at nx dx
          obtain ⟨c, b, a⟩ := x
          obtain ⟨c', b', a'⟩ := y
          simp only at *
          subst hxa hya
          have e1 : c = c' := by omega
          have e2 : b = b' := dx.symm.trans dy
          rw [e1, e2]
        · exact absurd hya h1
      · exact absurd hxa h1
    · exfalso
      refine value_irrational hy hya ?_
      rw [← h]
      unfold value
      rw [if_pos hxa]
      exact ⟨-(x.constantTerm : ℚ) / x.linearTerm, by push_cast; rfl⟩
  · by_cases hya : y.quadraticTerm = 0
    · exfalso
      refine value_irrational hx hxa ?_
      rw [h]
      unfold value
      rw [if_pos hya]
      exact ⟨-(y.constantTerm : ℚ) / y.linearTerm, by push_cast; rfl⟩
    · have hirr := value_irrational hx hxa
      rcases hx with ⟨h1, -⟩ | ⟨-, hx1, hx2, hx3⟩
      · exact absurd h1 hxa
      rcases hy with ⟨h1, -⟩ | ⟨-, hy1, hy2, hy3⟩
      · exact absurd h1 hya
      have rx := value_root hxa hx1
      have ry := value_root hya hy1
      rw [← h] at ry
      have hvx := value_of_ne hxa
      have hvy := value_of_ne hya
      rw [← h] at hvy
      have hsx := sqrt_irrational hx1 hx2
      push_cast at hsx
      generalize x.value = v at *
      obtain ⟨c, b, a⟩ := x
      obtain ⟨c', b', a'⟩ := y
      simp only at *
      have hlin : ((a' * b - a * b' : ℤ) : ℝ) * v + ((a' * c - a * c' : ℤ) : ℝ) = 0 := by
        push_cast
        linear_combination (a' : ℝ) * rx - (a : ℝ) * ry
      have hb : a' * b - a * b' = 0 := by
        by_contra hne
        apply hirr
        have hne' : ((a' * b - a * b' : ℤ) : ℝ) ≠ 0 := by exact_mod_cast hne
        refine ⟨-((a' * c - a * c' : ℤ) : ℚ) / ((a' * b - a * b' : ℤ) : ℚ), ?_⟩
        push_cast at hlin hne' ⊢
        rw [div_eq_iff hne']
        linarith
      have hc : a' * c - a * c' = 0 := by
        rw [hb] at hlin
        simp only [Int.cast_zero, zero_mul, zero_add] at hlin
        exact_mod_cast hlin
      have habs : a.natAbs = a'.natAbs := by
        have h1 := gcd3_mul (c := a' * c) (b := a' * b) (a := a' * a) a' rfl rfl rfl
        have h2 := gcd3_mul (c := a * c') (b := a * b') (a := a * a') a rfl rfl rfl
        rw [hx3, mul_one] at h1
        rw [hy3, mul_one] at h2
        rw [← h1, ← h2, show a' * c = a * c' by omega, show a' * b = a * b' by omega, mul_comm a' a]
      rcases Int.natAbs_eq_natAbs_iff.mp habs with h1 | h1
      · subst h1
        have e1 : c = c' := mul_left_cancel₀ hxa (by omega)
        have e2 : b = b' := mul_left_cancel₀ hxa (by omega)
        rw [e1, e2]
      · exfalso
        have h1 : a' = -a := by omega
        subst h1
        have e1 : c' = -c := mul_left_cancel₀ hxa (by linarith)
        have e2 : b' = -b := mul_left_cancel₀ hxa (by linarith)
        subst e1 e2
        have hd : ((-b : ℤ) : ℝ) ^ 2 - 4 * ((-a : ℤ) : ℝ) * ((-c : ℤ) : ℝ) = (b : ℝ) ^ 2 - 4 * a * c := by
          push_cast; ring
        rw [hd, hvx] at hvy
        have h5 : (a : ℝ) ≠ 0 := by exact_mod_cast hxa
        push_cast at hvy
        have h6 : √((b : ℝ) ^ 2 - 4 * a * c) = 0 := by
          generalize √((b : ℝ) ^ 2 - 4 * a * c) = S at *
          field_simp at hvy
          linarith
        rw [h6] at hsx
        exact hsx ⟨0, by simp⟩

end Quad

end Algebraics
