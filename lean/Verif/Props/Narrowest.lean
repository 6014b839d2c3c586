import Verif.Spec.Narrowest
import Verif.Props.Interval

/-!
Property C73: the result of an interval operation is the narrowest interval of its precision that holds all the
exact results.
-/

namespace Algebraics

namespace DFI

/-- it is enough that two of the numbers are less than one unit inside the ends. -/
theorem narrowest_of {r : DFI} {S : Set ℝ} (hc : ∀ z ∈ S, r.Contains z) {v w : ℝ} (hv : v ∈ S) (hw : w ∈ S)
    (h1 : v * 2 ^ r.log2Denom < r.lo + 1) (h2 : (r.hi : ℝ) - 1 < w * 2 ^ r.log2Denom) : r.Narrowest S := by
  refine ⟨hc, fun c hd hcc => ?_⟩
  have e1 := ((contains_iff _ _).mp (hcc v hv)).1
  have e2 := ((contains_iff _ _).mp (hcc w hw)).2
  rw [hd] at e1 e2
  have e3 : (c.lo : ℝ) < r.lo + 1 := by linarith
  have e4 : (r.hi : ℝ) - 1 < c.hi := by linarith
  constructor
  · exact Int.lt_add_one_iff.mp (by exact_mod_cast e3)
  · exact Int.sub_one_lt_iff.mp (by exact_mod_cast e4)

/-- two narrowest intervals of the same precision are the same. -/
theorem Narrowest.unique {r s : DFI} {S : Set ℝ} (hr : r.Narrowest S) (hs : s.Narrowest S)
    (hd : r.log2Denom = s.log2Denom) : r = s := by
  obtain ⟨h1, h2⟩ := hr.2 s hd.symm hs.1
  obtain ⟨h3, h4⟩ := hs.2 r hd hr.1
  obtain ⟨rl, rh, rd⟩ := r
  obtain ⟨sl, sh, sd⟩ := s
  simp only at h1 h2 h3 h4 hd
  rw [mk.injEq]
  exact ⟨by omega, by omega, hd⟩

theorem scaled (x : ℤ) (n : ℕ) : (x : ℝ) / 2 ^ n * 2 ^ n = x := div_mul_cancel₀ _ (by positivity)

end DFI

open DFI

/-- C73: the narrowest interval is unique, so the theorems below determine the results completely. -/
theorem C73_unique (r s : DFI) (S : Set ℝ) (hr : r.Narrowest S) (hs : s.Narrowest S)
    (hd : r.log2Denom = s.log2Denom) : r = s := hr.unique hs hd

/-- C73: constructors and changes of precision. -/
theorem C73_constructors (q : ℚ) (n : ℕ) (a : DFI) (ha : a.Ordered) :
    (fromRatio q n).Narrowest {(q : ℝ)} ∧ (a.convertLog2Denom n).Narrowest {x | a.Contains x} ∧
    ∀ lb ub r, fromRatioRange lb ub n = some r → r.Narrowest (Set.Icc (lb : ℝ) ub) := by
  refine ⟨?_, ?_, ?_⟩
  · obtain ⟨h1, h2, h3, h4⟩ := C01_from_ratio q n
    refine narrowest_of (v := q) (w := q) (by rintro z rfl; exact h2) rfl rfl ?_ ?_
    · rw [h1]
      rw [sub_lt_iff_lt_add, ← add_div, lt_div_iff₀ (by positivity)] at h3
      exact h3
    · rw [h1]
      rw [← sub_lt_iff_lt_add, ← sub_div, div_lt_iff₀ (by positivity)] at h4
      exact h4
  · obtain ⟨h1, h2, h3, h4, -⟩ := C01_convert a n
    refine narrowest_of (fun z hz => h2 z hz) (contains_lower ha) (contains_upper ha) ?_ ?_
    · rw [h1]
      rw [sub_lt_iff_lt_add, ← add_div, lt_div_iff₀ (by positivity)] at h3
      exact h3
    · rw [h1]
      rw [← sub_lt_iff_lt_add, ← sub_div, div_lt_iff₀ (by positivity)] at h4
      exact h4
  · intro lb ub r hr
    obtain ⟨h0, h⟩ := C01_from_ratio_range lb ub n
    obtain ⟨h1, h2, h3, h4⟩ := h r hr
    have hle : (lb : ℝ) ≤ ub := by
      have : ¬ ub < lb := fun hlt => by rw [h0.mpr hlt] at hr; cases hr
      exact_mod_cast not_lt.mp this
    refine narrowest_of (fun z hz => h2 z hz.1 hz.2) (Set.left_mem_Icc.mpr hle) (Set.right_mem_Icc.mpr hle) ?_ ?_
    · rw [h1]
      rw [sub_lt_iff_lt_add, ← add_div, lt_div_iff₀ (by positivity)] at h3
      exact h3
    · rw [h1]
      rw [← sub_lt_iff_lt_add, ← sub_div, div_lt_iff₀ (by positivity)] at h4
      exact h4

/-- C73: sums, differences, negatives, and the union of two intervals. -/
theorem C73_add_sub (a b : DFI) (ha : a.Ordered) (hb : b.Ordered) :
    (a.add b).Narrowest {z | ∃ x y, a.Contains x ∧ b.Contains y ∧ z = x + y} ∧
    (a.sub b).Narrowest {z | ∃ x y, a.Contains x ∧ b.Contains y ∧ z = x - y} ∧
    a.neg.Narrowest {z | ∃ x, a.Contains x ∧ z = -x} ∧
    (a.union b).Narrowest {z | a.Contains z ∨ b.Contains z} := by
  refine ⟨?_, ?_, ?_, ?_⟩
  · obtain ⟨t1, t2⟩ := C02_add_tight a b
    refine narrowest_of ?_ ⟨_, _, contains_lower ha, contains_lower hb, rfl⟩
      ⟨_, _, contains_upper ha, contains_upper hb, rfl⟩ ?_ ?_
    · rintro z ⟨x, y, hx, hy, rfl⟩; exact contains_add hx hy
    · rw [← t1, scaled]; linarith
    · rw [← t2, scaled]; linarith
  · obtain ⟨t1, t2⟩ := C02_sub_tight a b
    refine narrowest_of ?_ ⟨_, _, contains_lower ha, contains_upper hb, rfl⟩
      ⟨_, _, contains_upper ha, contains_lower hb, rfl⟩ ?_ ?_
    · rintro z ⟨x, y, hx, hy, rfl⟩; exact contains_sub hx hy
    · rw [← t1, scaled]; linarith
    · rw [← t2, scaled]; linarith
  · refine narrowest_of ?_ ⟨_, contains_upper ha, rfl⟩ ⟨_, contains_lower ha, rfl⟩ ?_ ?_
    · rintro z ⟨x, hx, rfl⟩; exact contains_neg hx
    · simp only [neg]; rw [neg_mul, scaled]; push_cast; linarith
    · simp only [neg]; rw [neg_mul, scaled]; push_cast; linarith
  · obtain ⟨t1, t2⟩ := union_ends a b
    have hm : ∀ (u v : ℝ), a.Contains u → b.Contains v → min u v ∈ {z | a.Contains z ∨ b.Contains z} ∧
        max u v ∈ {z | a.Contains z ∨ b.Contains z} := by
      intro u v hu hv
      rcases le_total u v with h | h
      · rw [min_eq_left h, max_eq_right h]; exact ⟨Or.inl hu, Or.inr hv⟩
      · rw [min_eq_right h, max_eq_left h]; exact ⟨Or.inr hv, Or.inl hu⟩
    refine narrowest_of ?_ (hm _ _ (contains_lower ha) (contains_lower hb)).1
      (hm _ _ (contains_upper ha) (contains_upper hb)).2 ?_ ?_
    · rintro z (hz | hz)
      · exact contains_union_left hz hb
      · exact contains_union_right ha hz
    · rw [← t1, scaled]; linarith
    · rw [← t2, scaled]; linarith

namespace DFI

/-- the ends of a product are rounded products of members. -/
theorem mul_attained (a b : DFI) (ha : a.Ordered) (hb : b.Ordered) :
    (∃ x y, a.Contains x ∧ b.Contains y ∧ x * y * 2 ^ (a.mul b).log2Denom < (a.mul b).lo + 1) ∧
    ∃ x y, a.Contains x ∧ b.Contains y ∧ ((a.mul b).hi : ℝ) - 1 < x * y * 2 ^ (a.mul b).log2Denom := by
  have key : ∀ (n : ℕ) (ll lh rl rh : ℤ), a.Contains (ll / 2 ^ n) → a.Contains (lh / 2 ^ n) →
      b.Contains (rl / 2 ^ n) → b.Contains (rh / 2 ^ n) →
      (∃ x y, a.Contains x ∧ b.Contains y ∧ x * y * 2 ^ n < (mulOp ll lh rl rh n).1 + 1) ∧
      ∃ x y, a.Contains x ∧ b.Contains y ∧ ((mulOp ll lh rl rh n).2 : ℝ) - 1 < x * y * 2 ^ n := by
    intro n ll lh rl rh c1 c2 c3 c4
    obtain ⟨mn, mx, e1, e2, -, -, m1, m2⟩ := mulOp_bounds ll lh rl rh n
    have s1 := lt_shr mn n
    have s2 := neg_shr_neg_lt mx n
    have pick : ∀ m ∈ [ll * rl, ll * rh, lh * rl, lh * rh],
        ∃ x y : ℝ, a.Contains x ∧ b.Contains y ∧ x * y * 2 ^ n * 2 ^ n = m := by
      intro m hm
      have e : ∀ u v : ℤ, (u : ℝ) / 2 ^ n * (v / 2 ^ n) * 2 ^ n * 2 ^ n = ((u * v : ℤ) : ℝ) := by
        intro u v
        push_cast
        field_simp
      simp only [List.mem_cons, List.not_mem_nil, or_false] at hm
      rcases hm with rfl | rfl | rfl | rfl
      · exact ⟨_, _, c1, c3, e _ _⟩
      · exact ⟨_, _, c1, c4, e _ _⟩
      · exact ⟨_, _, c2, c3, e _ _⟩
      · exact ⟨_, _, c2, c4, e _ _⟩
    have hp : (0:ℝ) < 2 ^ n := by positivity
    constructor
    · obtain ⟨x, y, hx, hy, h⟩ := pick mn m1
      refine ⟨x, y, hx, hy, ?_⟩
      rw [e1, ← mul_lt_mul_iff_left₀ hp, h]
      exact s1
    · obtain ⟨x, y, hx, hy, h⟩ := pick mx m2
      refine ⟨x, y, hx, hy, ?_⟩
      rw [e2, ← mul_lt_mul_iff_left₀ hp, h]
      exact s2
  have sh : ∀ (u : Int) (m k : Nat), m ≤ k → ((shl u (k - m) : Int) : ℝ) / 2 ^ k = (u:ℝ) / 2 ^ m := by
    intro u m k h
    obtain ⟨j, rfl⟩ := Nat.exists_eq_add_of_le h
    rw [shl_cast, Nat.add_sub_cancel_left, pow_add]; field_simp
  unfold mul doOp
  by_cases h : b.log2Denom ≥ a.log2Denom
  · rw [if_pos h]
    refine key _ _ _ _ _ ?_ ?_ (contains_lower hb) (contains_upper hb)
    · rw [sh _ _ _ h]; exact contains_lower ha
    · rw [sh _ _ _ h]; exact contains_upper ha
  · rw [if_neg h]
    have h := le_of_not_ge h
    refine key _ _ _ _ _ (contains_lower ha) (contains_upper ha) ?_ ?_
    · rw [sh _ _ _ h]; exact contains_lower hb
    · rw [sh _ _ _ h]; exact contains_upper hb

end DFI

/-- C73: products and squares. -/
theorem C73_mul (a b : DFI) (ha : a.Ordered) (hb : b.Ordered) :
    (a.mul b).Narrowest {z | ∃ x y, a.Contains x ∧ b.Contains y ∧ z = x * y} ∧
    a.square.Narrowest {z | ∃ x, a.Contains x ∧ z = x * x} := by
  constructor
  · obtain ⟨⟨x, y, h1, h2, h3⟩, ⟨x', y', h4, h5, h6⟩⟩ := mul_attained a b ha hb
    refine narrowest_of ?_ ⟨x, y, h1, h2, rfl⟩ ⟨x', y', h4, h5, rfl⟩ h3 h6
    rintro z ⟨x, y, hx, hy, rfl⟩; exact contains_mul hx hy
  · obtain ⟨t1, ⟨u, u1, u2⟩, ⟨w, w1, w2⟩⟩ := C10_abs_tight a ha
    have hp : (0:ℝ) < 2 ^ a.log2Denom := by positivity
    refine narrowest_of ?_ ⟨u, u1, rfl⟩ ⟨w, w1, rfl⟩ ?_ ?_
    · rintro z ⟨x, hx, rfl⟩; exact contains_square hx
    · rw [square_eq, ← abs_mul_abs_self u, u2]
      simp only
      have := lt_shr (a.abs.lo * a.abs.lo) a.log2Denom
      rw [← mul_lt_mul_iff_left₀ hp]
      refine lt_of_eq_of_lt ?_ this
      push_cast
      field_simp
    · rw [square_eq, ← abs_mul_abs_self w, w2]
      simp only
      have := neg_shr_neg_lt (a.abs.hi * a.abs.hi) a.log2Denom
      rw [← mul_lt_mul_iff_left₀ hp]
      refine lt_of_lt_of_eq this ?_
      push_cast
      field_simp

namespace DFI

theorem recip_attained (a r : DFI) (ha : a.Ordered) (hr : a.checkedRecip = some r) :
    r.log2Denom = a.log2Denom ∧
    ((a.hi : ℝ) / 2 ^ a.log2Denom)⁻¹ * 2 ^ a.log2Denom < r.lo + 1 ∧
    (r.hi : ℝ) - 1 < ((a.lo : ℝ) / 2 ^ a.log2Denom)⁻¹ * 2 ^ a.log2Denom := by
  unfold checkedRecip at hr
  by_cases hz : a.containsZero = true
  · rw [if_pos hz] at hr; cases hr
  rw [if_neg hz, Option.some.injEq] at hr
  subst hr
  have hne : a.lo ≠ 0 ∧ a.hi ≠ 0 := by
    unfold Ordered at ha
    simp only [containsZero, Bool.and_eq_true, Bool.not_eq_true', decide_eq_false_iff_not] at hz
    omega
  have e : ∀ u : ℤ, u ≠ 0 → ((u : ℝ) / 2 ^ a.log2Denom)⁻¹ * 2 ^ a.log2Denom =
      ((shl 1 (2 * a.log2Denom) : ℤ) : ℝ) / u := by
    intro u hu
    have hu' : (u : ℝ) ≠ 0 := by exact_mod_cast hu
    rw [shl_cast, two_mul, pow_add]
    push_cast
    field_simp
  refine ⟨rfl, ?_, ?_⟩
  · rw [e _ hne.2]; exact lt_fdiv_real _ _ hne.2
  · rw [e _ hne.1]; have := divCeil_lt_real (shl 1 (2 * a.log2Denom)) a.lo hne.1
    simp only
    linarith

end DFI

/-- C73: reciprocals and square roots. -/
theorem C73_recip_sqrt (a : DFI) (ha : a.Ordered) :
    (∀ r, a.checkedRecip = some r → r.Narrowest {z | ∃ x, a.Contains x ∧ z = x⁻¹}) ∧
    (∀ r, a.sqrt = some r → r.Narrowest {z | ∃ x, a.Contains x ∧ z = √x}) := by
  refine ⟨fun r hr => ?_, fun r hr => ?_⟩
  · obtain ⟨h1, h2, h3⟩ := recip_attained a r ha hr
    refine narrowest_of ?_ ⟨_, contains_upper ha, rfl⟩ ⟨_, contains_lower ha, rfl⟩ ?_ ?_
    · rintro z ⟨x, hx, rfl⟩; exact contains_recip hx hr
    · rw [h1]; exact h2
    · rw [h1]; exact h3
  · obtain ⟨h1, h2, h3, h4⟩ := (C05_sqrt a ha).2 r hr
    refine narrowest_of ?_ ⟨_, contains_lower ha, rfl⟩ ⟨_, contains_upper ha, rfl⟩ ?_ ?_
    · rintro z ⟨x, hx, rfl⟩; exact contains_sqrt hx hr
    · rw [h1]
      rw [sub_lt_iff_lt_add, ← add_div, lt_div_iff₀ (by positivity)] at h3
      exact h3
    · rw [h1]
      rw [← sub_lt_iff_lt_add, ← sub_div, div_lt_iff₀ (by positivity)] at h4
      exact h4

/-- C73: absolute value, floor and ceiling. -/
theorem C73_abs_floor_ceil (a : DFI) (ha : a.Ordered) (n : ℕ) :
    a.abs.Narrowest {z | ∃ x, a.Contains x ∧ z = |x|} ∧
    (a.floor n).Narrowest {z | ∃ x, a.Contains x ∧ z = ⌊x⌋} ∧
    (a.ceil n).Narrowest {z | ∃ x, a.Contains x ∧ z = ⌈x⌉} := by
  refine ⟨?_, ?_, ?_⟩
  · obtain ⟨t1, ⟨u, u1, u2⟩, ⟨w, w1, w2⟩⟩ := C10_abs_tight a ha
    refine narrowest_of ?_ ⟨u, u1, rfl⟩ ⟨w, w1, rfl⟩ ?_ ?_
    · rintro z ⟨x, hx, rfl⟩; exact contains_abs hx
    · rw [u2, t1, scaled]; linarith
    · rw [w2, t1, scaled]; linarith
  · obtain ⟨t1, t2, -, -⟩ := C10_floor_ceil_tight a n
    have hd : (a.floor n).log2Denom = n := rfl
    refine narrowest_of ?_ ⟨_, contains_lower ha, rfl⟩ ⟨_, contains_upper ha, rfl⟩ ?_ ?_
    · rintro z ⟨x, hx, rfl⟩; exact contains_floor hx n
    · rw [← t1, hd, scaled]; linarith
    · rw [← t2, hd, scaled]; linarith
  · obtain ⟨-, -, t1, t2⟩ := C10_floor_ceil_tight a n
    have hd : (a.ceil n).log2Denom = n := rfl
    refine narrowest_of ?_ ⟨_, contains_lower ha, rfl⟩ ⟨_, contains_upper ha, rfl⟩ ?_ ?_
    · rintro z ⟨x, hx, rfl⟩; exact contains_ceil hx n
    · rw [← t1, hd, scaled]; linarith
    · rw [← t2, hd, scaled]; linarith

namespace DFI

theorem mulRatio_narrowest (a : DFI) (ha : a.Ordered) (q : ℚ) :
    (a.mulRatio q).Narrowest {z | ∃ x, a.Contains x ∧ z = x * q} := by
  have h1 : ∀ u : ℤ, (u : ℝ) / 2 ^ a.log2Denom * q * 2 ^ a.log2Denom < (⌊q * u⌋ : ℤ) + 1 := by
    intro u
    have := (Rat.cast_lt (K := ℝ)).mpr (Int.lt_floor_add_one (q * u))
    push_cast at this
    refine lt_of_eq_of_lt ?_ this
    field_simp
  have h2 : ∀ u : ℤ, ((⌈q * u⌉ : ℤ) : ℝ) - 1 < (u : ℝ) / 2 ^ a.log2Denom * q * 2 ^ a.log2Denom := by
    intro u
    have := (Rat.cast_lt (K := ℝ)).mpr (Int.ceil_lt_add_one (q * u))
    push_cast at this
    rw [sub_lt_iff_lt_add]
    refine lt_of_lt_of_eq this ?_
    field_simp
  have hc : ∀ z ∈ {z : ℝ | ∃ x, a.Contains x ∧ z = x * q}, (a.mulRatio q).Contains z := by
    rintro z ⟨x, hx, rfl⟩; exact contains_mulRatio hx q
  by_cases hq : q < 0
  · refine narrowest_of hc ⟨_, contains_upper ha, rfl⟩ ⟨_, contains_lower ha, rfl⟩ ?_ ?_
    · unfold mulRatio; rw [if_pos hq]; exact h1 _
    · unfold mulRatio; rw [if_pos hq]; exact h2 _
  · refine narrowest_of hc ⟨_, contains_lower ha, rfl⟩ ⟨_, contains_upper ha, rfl⟩ ?_ ?_
    · unfold mulRatio; rw [if_neg hq]; exact h1 _
    · unfold mulRatio; rw [if_neg hq]; exact h2 _

end DFI

/-- C73: operations with an integer or a rational number. -/
theorem C73_scalar (a : DFI) (ha : a.Ordered) (k : ℤ) (q : ℚ) :
    (a.addInt k).Narrowest {z | ∃ x, a.Contains x ∧ z = x + k} ∧
    (a.subInt k).Narrowest {z | ∃ x, a.Contains x ∧ z = x - k} ∧
    (a.addRatio q).Narrowest {z | ∃ x, a.Contains x ∧ z = x + q} ∧
    (a.subRatio q).Narrowest {z | ∃ x, a.Contains x ∧ z = x - q} ∧
    (a.mulInt k).Narrowest {z | ∃ x, a.Contains x ∧ z = x * k} ∧
    (a.mulRatio q).Narrowest {z | ∃ x, a.Contains x ∧ z = x * q} ∧
    (∀ r, a.divInt k = some r → r.Narrowest {z | ∃ x, a.Contains x ∧ z = x / k}) ∧
    (∀ r, a.divRatio q = some r → r.Narrowest {z | ∃ x, a.Contains x ∧ z = x / q}) := by
  obtain ⟨f1, f2, f3, f4⟩ := C01_from_ratio q a.log2Denom
  have hp : (0:ℝ) < 2 ^ a.log2Denom := by positivity
  rw [sub_lt_iff_lt_add, ← add_div, lt_div_iff₀ hp] at f3
  rw [← sub_lt_iff_lt_add, ← sub_div, div_lt_iff₀ hp] at f4
  refine ⟨?_, ?_, ?_, ?_, ?_, mulRatio_narrowest a ha q, ?_, ?_⟩
  · refine narrowest_of ?_ ⟨_, contains_lower ha, rfl⟩ ⟨_, contains_upper ha, rfl⟩ ?_ ?_
    · rintro z ⟨x, hx, rfl⟩; exact contains_addInt hx k
    · simp only [addInt]; rw [add_mul, scaled]; push_cast; rw [shl_cast]; linarith
    · simp only [addInt]; rw [add_mul, scaled]; push_cast; rw [shl_cast]; linarith
  · refine narrowest_of ?_ ⟨_, contains_lower ha, rfl⟩ ⟨_, contains_upper ha, rfl⟩ ?_ ?_
    · rintro z ⟨x, hx, rfl⟩; exact contains_subInt hx k
    · simp only [subInt]; rw [sub_mul, scaled]; push_cast; rw [shl_cast]; linarith
    · simp only [subInt]; rw [sub_mul, scaled]; push_cast; rw [shl_cast]; linarith
  · obtain ⟨t1, t2⟩ := C02_add_tight a (fromRatio q a.log2Denom)
    have hd : (a.add (fromRatio q a.log2Denom)).log2Denom = a.log2Denom := by
      rw [(C02_add _ _).1, f1, max_self]
    rw [hd, f1, ← add_div, div_left_inj' hp.ne'] at t1 t2
    refine narrowest_of ?_ ⟨_, contains_lower ha, rfl⟩ ⟨_, contains_upper ha, rfl⟩ ?_ ?_
    · rintro z ⟨x, hx, rfl⟩; exact (C02_scalar a x hx k q).2.2.1
    · unfold addRatio; rw [hd, t1, add_mul, scaled]; linarith
    · unfold addRatio; rw [hd, t2, add_mul, scaled]; linarith
  · obtain ⟨t1, t2⟩ := C02_sub_tight a (fromRatio q a.log2Denom)
    have hd : (a.sub (fromRatio q a.log2Denom)).log2Denom = a.log2Denom := by
      rw [(C02_sub _ _).1, f1, max_self]
    rw [hd, f1, ← sub_div, div_left_inj' hp.ne'] at t1 t2
    refine narrowest_of ?_ ⟨_, contains_lower ha, rfl⟩ ⟨_, contains_upper ha, rfl⟩ ?_ ?_
    · rintro z ⟨x, hx, rfl⟩; exact (C02_scalar a x hx k q).2.2.2.1
    · unfold subRatio; rw [hd, t1, sub_mul, scaled]; linarith
    · unfold subRatio; rw [hd, t2, sub_mul, scaled]; linarith
  · have hc : ∀ z ∈ {z : ℝ | ∃ x, a.Contains x ∧ z = x * k}, (a.mulInt k).Contains z := by
      rintro z ⟨x, hx, rfl⟩; exact contains_mulInt hx k
    have e : ∀ u : ℤ, (u : ℝ) / 2 ^ a.log2Denom * k * 2 ^ a.log2Denom = u * k := by
      intro u; field_simp
    by_cases hk : k < 0
    · refine narrowest_of hc ⟨_, contains_upper ha, rfl⟩ ⟨_, contains_lower ha, rfl⟩ ?_ ?_
      · unfold mulInt; rw [if_pos hk]; simp only; rw [e]; push_cast; linarith
      · unfold mulInt; rw [if_pos hk]; simp only; rw [e]; push_cast; linarith
    · refine narrowest_of hc ⟨_, contains_lower ha, rfl⟩ ⟨_, contains_upper ha, rfl⟩ ?_ ?_
      · unfold mulInt; rw [if_neg hk]; simp only; rw [e]; push_cast; linarith
      · unfold mulInt; rw [if_neg hk]; simp only; rw [e]; push_cast; linarith
  · intro r hr
    unfold divInt at hr
    split at hr
    · cases hr
    · rw [Option.some.injEq] at hr
      subst hr
      convert mulRatio_narrowest a ha (1 / k) using 6
      push_cast
      ring
  · intro r hr
    unfold divRatio at hr
    split at hr
    · cases hr
    · rw [Option.some.injEq] at hr
      subst hr
      convert mulRatio_narrowest a ha q⁻¹ using 6
      push_cast
      ring

/-- C73 is false for the quotient of two intervals, at every precision: `4 / 3` is computed as `4` times the rounded
`1 / 3`, which is at least four units wide, where one unit is enough. -/
theorem C73_div_false (n : ℕ) : ∃ r, (fromInt 4 n).checkedDiv (fromInt 3 n) = some r ∧ 4 ≤ r.hi - r.lo ∧
    ¬ r.Narrowest {z | ∃ x y, (fromInt 4 n).Contains x ∧ (fromInt 3 n).Contains y ∧ z = x / y} := by
  have hp : (0:ℝ) < 2 ^ n := by positivity
  have h4 : ∀ x : ℝ, (fromInt 4 n).Contains x ↔ x = 4 := fun x => by
    have := (C01_exact_constants 4 n x).1
    push_cast at this; exact this
  have h3 : ∀ x : ℝ, (fromInt 3 n).Contains x ↔ x = 3 := fun x => by
    have := (C01_exact_constants 3 n x).1
    push_cast at this; exact this
  cases hr : (fromInt 3 n).checkedRecip with
  | none =>
    rw [checkedRecip_eq_none_iff, h3] at hr
    norm_num at hr
  | some t =>
    have ht := contains_recip ((h3 3).mpr rfl) hr
    have hd : t.log2Denom = n := (C04_recip (fromInt 3 n)).2 t hr |>.1
    obtain ⟨t1, t2⟩ := (contains_iff _ _).mp ht
    rw [hd] at t1 t2
    have hne : ∀ u : ℤ, (u : ℝ) ≠ (3:ℝ)⁻¹ * 2 ^ n := by
      intro u hu
      have h5 : (3:ℝ) * u = 2 ^ n := by rw [hu]; ring
      have h6 : (3:ℤ) * u = 2 ^ n := by exact_mod_cast h5
      have h7 : (3:ℤ) ∣ 2 ^ n := ⟨u, h6.symm⟩
      have := Int.Prime.dvd_pow' (by norm_num : Nat.Prime 3) h7
      omega
    have hlt : t.lo < t.hi := by
      have h5 := lt_of_le_of_ne t1 (hne _)
      have h6 := lt_of_le_of_ne t2 (hne _).symm
      exact_mod_cast h5.trans h6
    have hto : t.Ordered := ht.ordered
    have hrr : (fromInt 4 n).checkedDiv (fromInt 3 n) = some ((fromInt 4 n).mul t) := by
      unfold checkedDiv; rw [hr]; rfl
    set r := (fromInt 4 n).mul t
    have hrd : r.log2Denom = n := by
      have := (C03_mul (fromInt 4 n) t).1
      rw [hd] at this
      rw [this]
      exact max_self _
    have l1 := (contains_iff _ _).mp (contains_mul ((h4 4).mpr rfl) (contains_lower hto))
    have l2 := (contains_iff _ _).mp (contains_mul ((h4 4).mpr rfl) (contains_upper hto))
    have hw : 4 ≤ r.hi - r.lo := by
      have e1 := l1.1
      have e2 := l2.2
      rw [show ((fromInt 4 n).mul t).log2Denom = n from hrd, hd, mul_assoc, scaled] at e1 e2
      have e3 : r.lo ≤ 4 * t.lo := by exact_mod_cast e1
      have e4 : 4 * t.hi ≤ r.hi := by exact_mod_cast e2
      omega
    refine ⟨r, hrr, hw, fun hn => ?_⟩
    obtain ⟨f1, f2, f3, f4⟩ := C01_from_ratio (4 / 3) n
    obtain ⟨c1, c2⟩ := hn.2 (fromRatio (4 / 3) n) (by rw [hrd]; exact f1) (by
      rintro z ⟨x, y, hx, hy, rfl⟩
      rw [h4] at hx
      rw [h3] at hy
      rw [hx, hy]
      push_cast at f2
      exact f2)
    have g : ((fromRatio (4 / 3) n).hi : ℝ) / 2 ^ n < (fromRatio (4 / 3) n).lo / 2 ^ n + 2 * (1 / 2 ^ n) := by
      linarith
    rw [mul_one_div, ← add_div, div_lt_div_iff_of_pos_right hp] at g
    have g2 : (fromRatio (4 / 3) n).hi < (fromRatio (4 / 3) n).lo + 2 := by exact_mod_cast g
    omega

/-- C73, in part: how far the quotient of two intervals can be from the narrowest one: at each end by one unit and the
size of the dividend times one unit of the divisor. -/
theorem C73_div_partial (a b r : DFI) (ha : a.Ordered) (hb : b.Ordered) (hr : a.checkedDiv b = some r) :
    (∃ x y, a.Contains x ∧ b.Contains y ∧
      x / y < (r.lo + 1) / 2 ^ r.log2Denom + |x| / 2 ^ b.log2Denom) ∧
    ∃ x y, a.Contains x ∧ b.Contains y ∧
      (r.hi - 1) / 2 ^ r.log2Denom - |x| / 2 ^ b.log2Denom < x / y := by
  unfold checkedDiv at hr
  rw [Option.map_eq_some_iff] at hr
  obtain ⟨t, ht, rfl⟩ := hr
  have hz : ¬ b.Contains 0 := by
    rw [← checkedRecip_eq_none_iff, ht]; simp
  obtain ⟨t1, t2, t3⟩ := recip_attained b t hb ht
  have hp : (0:ℝ) < 2 ^ b.log2Denom := by positivity
  have hto : t.Ordered := (contains_recip (contains_lower hb) ht).ordered
  -- a member of the rounded reciprocal is close to a reciprocal
  have close : ∀ u, t.Contains u → ∃ y, b.Contains y ∧ |u - y⁻¹| ≤ 1 / 2 ^ b.log2Denom := by
    intro u hu
    obtain ⟨u1, u2⟩ := (contains_iff _ _).mp hu
    rw [t1] at u1 u2
    rw [← lt_div_iff₀ hp] at t2
    rw [← div_lt_iff₀ hp] at t3
    have u1' : (t.lo : ℝ) / 2 ^ b.log2Denom ≤ u := by rwa [div_le_iff₀ hp]
    have u2' : u ≤ (t.hi : ℝ) / 2 ^ b.log2Denom := by rwa [le_div_iff₀ hp]
    rw [add_div] at t2
    rw [sub_div] at t3
    by_cases h1 : u < ((b.hi : ℝ) / 2 ^ b.log2Denom)⁻¹
    · refine ⟨_, contains_upper hb, ?_⟩
      rw [abs_le]; constructor <;> linarith
    by_cases h2 : ((b.lo : ℝ) / 2 ^ b.log2Denom)⁻¹ < u
    · refine ⟨_, contains_lower hb, ?_⟩
      rw [abs_le]; constructor <;> linarith
    push Not at h1 h2
    refine ⟨u⁻¹, ?_, by rw [inv_inv, sub_self, abs_zero]; positivity⟩
    unfold Contains at hz ⊢
    have hlh : (b.lo : ℝ) / 2 ^ b.log2Denom ≤ b.hi / 2 ^ b.log2Denom := (contains_lower hb).2
    generalize (b.lo : ℝ) / 2 ^ b.log2Denom = l at *
    generalize (b.hi : ℝ) / 2 ^ b.log2Denom = h at *
    have hcase : 0 < l ∨ h < 0 := by
      by_contra hcon; push Not at hcon; exact hz hcon
    rcases hcase with h0 | h0
    · have hh : 0 < h := by linarith
      have hu0 : 0 < u := lt_of_lt_of_le (inv_pos.mpr hh) h1
      exact ⟨(le_inv_comm₀ h0 hu0).mpr h2, (inv_le_comm₀ hu0 hh).mpr h1⟩
    · have hl : l < 0 := by linarith
      have hu0 : u < 0 := lt_of_le_of_lt h2 (inv_lt_zero.mpr hl)
      exact ⟨(le_inv_of_neg hl hu0).mpr h2, (inv_le_of_neg hu0 h0).mpr h1⟩
  have hN : (0:ℝ) < 2 ^ (a.mul t).log2Denom := by positivity
  have err : ∀ x u y : ℝ, |u - y⁻¹| ≤ 1 / 2 ^ b.log2Denom → |x * u - x / y| ≤ |x| / 2 ^ b.log2Denom := by
    intro x u y h
    rw [div_eq_mul_inv, ← mul_sub, abs_mul, div_eq_mul_one_div |x|]
    exact mul_le_mul_of_nonneg_left h (abs_nonneg x)
  obtain ⟨⟨x, u, h1, h2, h3⟩, ⟨x', u', h4, h5, h6⟩⟩ := mul_attained a t ha hto
  constructor
  · obtain ⟨y, hy, hyu⟩ := close u h2
    refine ⟨x, y, h1, hy, ?_⟩
    have := (abs_le.mp (err x u y hyu)).1
    rw [← lt_div_iff₀ hN] at h3
    linarith
  · obtain ⟨y, hy, hyu⟩ := close u' h5
    refine ⟨x', y, h4, hy, ?_⟩
    have := (abs_le.mp (err x' u' y hyu)).2
    rw [← div_lt_iff₀ hN] at h6
    linarith

example : (⟨-3, 5, 2⟩ : DFI).Ordered ∧ (⟨3, 5, 1⟩ : DFI).Ordered ∧
    (⟨-3, 5, 2⟩ : DFI).checkedDiv ⟨3, 5, 1⟩ = some ⟨-3, 5, 2⟩ ∧
    (⟨-3, 5, 2⟩ : DFI).mul ⟨3, 5, 1⟩ = ⟨-8, 13, 2⟩ ∧ (⟨3, 5, 1⟩ : DFI).checkedRecip = some ⟨0, 2, 1⟩ := by
  unfold DFI.Ordered; decide +kernel

end Algebraics
