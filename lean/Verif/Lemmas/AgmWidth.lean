import Verif.Lemmas.Agm
import Verif.Props.Narrowest
import Mathlib.Analysis.SpecificLimits.Normed
import Mathlib.Analysis.Complex.Exponential

/-!
Width of the arithmetic-geometric mean: what one turn of the loop does to the ends of the two intervals, first for
real numbers and then for the model.
-/

namespace Algebraics

/-- one turn of the loop on the ends `[a1, a2]` and `[g1, g2]`, with rounding errors below `v`. -/
structure AgmStep (v a1 a2 g1 g2 a1' a2' g1' g2' : ℝ) : Prop where
  al : (a1 + g1) / 2 - v ≤ a1'
  al' : a1' ≤ (a1 + g1) / 2
  au : a2' ≤ (a2 + g2) / 2 + v
  gl : Real.sqrt (a1 * g1) - v ≤ g1'
  gl' : g1' ≤ Real.sqrt (a1 * g1)
  gu : g2' ≤ Real.sqrt (a2 * g2) + v

/-- what is known of the ends before turn `k`. -/
structure AgmEnds (m B v κ ρ δ : ℝ) (k : ℕ) (a1 a2 g1 g2 : ℝ) : Prop where
  ha : 2 * m - k * v ≤ a1
  hg : 2 * m - k * v ≤ g1
  ba : a1 ≤ B
  bg : g1 ≤ B
  ra : a2 ≤ ρ * (1 + κ) ^ k * a1
  rg : g2 ≤ ρ * (1 + κ) ^ k * g1
  oa : a1 ≤ a2
  og : g1 ≤ g2
  hd : |a1 - g1| ≤ δ / 2 ^ k + 2 * v

theorem sqrt_mul_between {x y : ℝ} (hx : 0 ≤ x) (hy : 0 ≤ y) :
    min x y ≤ Real.sqrt (x * y) ∧ Real.sqrt (x * y) ≤ (x + y) / 2 := by
  constructor
  · apply Real.le_sqrt_of_sq_le
    rw [sq]
    exact mul_le_mul (min_le_left _ _) (min_le_right _ _) (le_min hx hy) hx
  · rw [Real.sqrt_le_left (by positivity)]
    nlinarith [sq_nonneg (x - y)]

/-- a bound on the ratio of the ends is kept, up to the rounding. -/
theorem ratio_step {m v κ P s x1 x2 : ℝ} (hm : 0 < m) (hv : 0 ≤ v) (hvm : v ≤ m / 2) (hκ : κ = 4 * v / m) (hP : 1 ≤ P)
    (hs : m ≤ s) (h1 : s - v ≤ x1) (h2 : x2 ≤ P * s + v) : x2 ≤ P * (1 + κ) * x1 := by
  have hκ0 : 0 ≤ κ := by rw [hκ]; positivity
  have e : κ * m = 4 * v := by rw [hκ]; field_simp
  have h3 : κ * (m / 2) ≤ κ * (s - v) := mul_le_mul_of_nonneg_left (by linarith) hκ0
  have h4 : P * (1 + κ) * (s - v) ≤ P * (1 + κ) * x1 := mul_le_mul_of_nonneg_left h1 (by positivity)
  have h5 : P * (2 * v) ≤ P * (κ * (s - v)) := mul_le_mul_of_nonneg_left (by linarith) (by linarith)
  nlinarith

/-- the ends after one more turn. -/
theorem AgmEnds.step {m B v κ ρ δ : ℝ} {k : ℕ} {a1 a2 g1 g2 a1' a2' g1' g2' : ℝ}
    (h : AgmEnds m B v κ ρ δ k a1 a2 g1 g2) (s : AgmStep v a1 a2 g1 g2 a1' a2' g1' g2')
    (hm : 0 < m) (hv : 0 ≤ v) (hvm : v ≤ m / 2) (hκ : κ = 4 * v / m) (hρ : 1 ≤ ρ) (hk : k * v ≤ m)
    (oa : a1' ≤ a2') (og : g1' ≤ g2') : AgmEnds m B v κ ρ δ (k + 1) a1' a2' g1' g2' := by
  have ma : m ≤ a1 := by linarith [h.ha]
  have mg : m ≤ g1 := by linarith [h.hg]
  obtain ⟨q1, q2⟩ := sqrt_mul_between (hm.le.trans ma) (hm.le.trans mg)
  have hmin : 2 * m - k * v ≤ min a1 g1 := le_min h.ha h.hg
  have hκ0 : 0 ≤ κ := by rw [hκ]; positivity
  have hP : 1 ≤ ρ * (1 + κ) ^ k := one_le_mul_of_one_le_of_one_le hρ (one_le_pow₀ (by linarith))
  set P := ρ * (1 + κ) ^ k with hPd
  have hP' : ρ * (1 + κ) ^ (k + 1) = P * (1 + κ) := by rw [pow_succ, hPd]; ring
  have hmav : min a1 g1 ≤ (a1 + g1) / 2 := by
    linarith [min_le_left a1 g1, min_le_right a1 g1]
  have hms : m ≤ Real.sqrt (a1 * g1) := le_trans (le_min ma mg) q1
  have hsg : Real.sqrt (a2 * g2) ≤ P * Real.sqrt (a1 * g1) := by
    rw [Real.sqrt_le_left (by positivity), mul_pow, Real.sq_sqrt (by nlinarith)]
    have := mul_le_mul h.ra h.rg (by linarith [h.og]) (by nlinarith)
    linarith
  constructor
  · push_cast; linarith [s.al]
  · push_cast; linarith [s.gl]
  · linarith [s.al', h.ba, h.bg]
  · linarith [s.gl', h.ba, h.bg]
  · rw [hP']
    refine ratio_step hm hv hvm hκ hP (s := (a1 + g1) / 2) (by linarith) s.al ?_
    linarith [s.au, h.ra, h.rg]
  · rw [hP']
    exact ratio_step hm hv hvm hκ hP hms s.gl (by linarith [s.gu])
  · exact oa
  · exact og
  · have e1 : (a1 + g1) / 2 - Real.sqrt (a1 * g1) ≤ |a1 - g1| / 2 := by
      have : (a1 + g1) / 2 - min a1 g1 ≤ |a1 - g1| / 2 := by
        rcases le_total a1 g1 with c | c
        · rw [min_eq_left c, abs_of_nonpos (by linarith)]; linarith
        · rw [min_eq_right c, abs_of_nonneg (by linarith)]; linarith
      linarith
    have e2 : δ / 2 ^ (k + 1) = δ / 2 ^ k / 2 := by rw [pow_succ]; field_simp
    rw [e2, abs_le]
    constructor
    · linarith [s.al, s.gl', h.hd]
    · linarith [s.gl, s.al', h.hd]

/-- the hull of the two intervals. -/
theorem AgmEnds.hull {m B v κ ρ δ : ℝ} {k : ℕ} {a1 a2 g1 g2 d : ℝ}
    (h : AgmEnds m B v κ ρ δ k a1 a2 g1 g2) (hκ : 0 ≤ κ) (hρ : 1 ≤ ρ) (hd : |a1 - g1| ≤ d) :
    max a2 g2 - min a1 g1 ≤ (ρ * (1 + κ) ^ k - 1) * B + d := by
  have hP : 1 ≤ ρ * (1 + κ) ^ k := one_le_mul_of_one_le_of_one_le hρ (one_le_pow₀ (by linarith))
  set P := ρ * (1 + κ) ^ k
  have e1 : max a2 g2 ≤ max a1 g1 + (P - 1) * B := by
    apply max_le
    · have := mul_le_mul_of_nonneg_left h.ba (by linarith : (0:ℝ) ≤ P - 1)
      linarith [h.ra, le_max_left a1 g1]
    · have := mul_le_mul_of_nonneg_left h.bg (by linarith : (0:ℝ) ≤ P - 1)
      linarith [h.rg, le_max_right a1 g1]
  have e2 : max a1 g1 - min a1 g1 = |a1 - g1| := max_sub_min_eq_abs' a1 g1
  linarith

/-- when the hull does not shrink, the two lower ends are close. -/
theorem AgmEnds.stop {m B v κ ρ δ : ℝ} {k : ℕ} {a1 a2 g1 g2 a1' a2' g1' g2' : ℝ}
    (h : AgmEnds m B v κ ρ δ k a1 a2 g1 g2) (s : AgmStep v a1 a2 g1 g2 a1' a2' g1' g2')
    (hm : 0 < m) (hv : 0 ≤ v) (hk : k * v ≤ m)
    (hst : max a2 g2 - min a1 g1 ≤ max a2' g2' - min a1' g1') : |a1 - g1| ≤ 2 * v * (1 + B / m) := by
  have ma : m ≤ a1 := by linarith [h.ha]
  have mg : m ≤ g1 := by linarith [h.hg]
  obtain ⟨q1, q2⟩ := sqrt_mul_between (hm.le.trans ma) (hm.le.trans mg)
  obtain ⟨q3, q4⟩ := sqrt_mul_between (hm.le.trans (ma.trans h.oa)) (hm.le.trans (mg.trans h.og))
  have e1 : max a2' g2' ≤ (a2 + g2) / 2 + v := max_le s.au (by linarith [s.gu])
  have e2 : Real.sqrt (a1 * g1) - v ≤ min a1' g1' := le_min (by linarith [s.al]) s.gl
  have e3 : (a2 + g2) / 2 ≤ max a2 g2 := by linarith [le_max_left a2 g2, le_max_right a2 g2]
  have e4 : Real.sqrt (a1 * g1) - min a1 g1 ≤ 2 * v := by linarith
  have key : ∀ x y : ℝ, m ≤ x → x ≤ y → y ≤ B → Real.sqrt (x * y) - x ≤ 2 * v → y - x ≤ 2 * v * (1 + B / m) := by
    intro x y hx hxy hy hxv
    have hx0 : 0 < x := by linarith
    set w := Real.sqrt (x * y) with hw
    have w2 : w * w = x * y := Real.mul_self_sqrt (mul_nonneg hx0.le (by linarith))
    have w1 : x ≤ w := Real.le_sqrt_of_sq_le (by nlinarith)
    have w3 : w ≤ y := by rw [hw, Real.sqrt_le_left (by linarith)]; nlinarith
    have hBm : w ≤ x * (B / m) := by
      have : m * w ≤ x * B := mul_le_mul hx (w3.trans hy) (by linarith) hx0.le
      rw [mul_div_assoc', le_div_iff₀ hm]; linarith
    have f1 : x * (y - x) = (w - x) * (w + x) := by linarith [w2]
    have f2 : (w - x) * (w + x) ≤ 2 * v * (x * (1 + B / m)) := by
      apply mul_le_mul hxv (by linarith) (by linarith) (by linarith)
    have f3 : x * (y - x) ≤ x * (2 * v * (1 + B / m)) := by linarith
    exact le_of_mul_le_mul_left f3 hx0
  rcases le_total a1 g1 with c | c
  · rw [abs_of_nonpos (by linarith)]
    rw [min_eq_left c] at e4
    linarith [key a1 g1 ma c h.bg e4]
  · rw [abs_of_nonneg (by linarith)]
    rw [min_eq_right c, mul_comm] at e4
    linarith [key g1 a1 mg c h.ba e4]

theorem sqrt_sub_ge {m p u : ℝ} (hm : 0 < m) (hu : 0 ≤ u) (hp : m * m ≤ p) (hum : u / m ≤ m) :
    Real.sqrt p - u / m ≤ Real.sqrt (p - u) := by
  apply Real.le_sqrt_of_sq_le
  have w2 := Real.mul_self_sqrt (by nlinarith : (0:ℝ) ≤ p)
  have w1 : m ≤ Real.sqrt p := Real.le_sqrt_of_sq_le (by linarith [sq m])
  have h0 : 0 ≤ u / m := by positivity
  have eu : u = u / m * m := by field_simp
  generalize Real.sqrt p = w at *
  generalize u / m = z at *
  have : z * (m + z) ≤ z * (2 * w) := mul_le_mul_of_nonneg_left (by linarith) h0
  nlinarith

theorem sqrt_add_le {m p u : ℝ} (hm : 0 < m) (hu : 0 ≤ u) (hp : m * m ≤ p) :
    Real.sqrt (p + u) ≤ Real.sqrt p + u / m := by
  have w2 := Real.mul_self_sqrt (by nlinarith : (0:ℝ) ≤ p)
  have w1 : m ≤ Real.sqrt p := Real.le_sqrt_of_sq_le (by linarith [sq m])
  have h0 : 0 ≤ u / m := by positivity
  rw [Real.sqrt_le_left (by positivity)]
  have eu : u = u / m * m := by field_simp
  generalize Real.sqrt p = w at *
  generalize u / m = z at *
  have : z * m ≤ z * w := mul_le_mul_of_nonneg_left w1 h0
  nlinarith

namespace DFI

/-- one turn on the model: the ends of the two new intervals. -/
theorem agm_step (a g : DFI) (oa : a.Ordered) (og : g.Ordered) (m v : ℝ) (hm : 0 < m)
    (ha : m ≤ (a.lo : ℝ) / 2 ^ a.log2Denom) (hg : m ≤ (g.lo : ℝ) / 2 ^ g.log2Denom)
    (hv : (1 + 1 / m) / 2 ^ (max a.log2Denom g.log2Denom) ≤ v) (hvm : v ≤ m / 2) :
    ∃ a' g', (a.add g).divInt 2 = some a' ∧ (a.mul g).sqrt = some g' ∧ a'.Ordered ∧ g'.Ordered ∧
      a'.log2Denom = max a.log2Denom g.log2Denom ∧ g'.log2Denom = max a.log2Denom g.log2Denom ∧
      AgmStep v (a.lo / 2 ^ a.log2Denom) (a.hi / 2 ^ a.log2Denom) (g.lo / 2 ^ g.log2Denom) (g.hi / 2 ^ g.log2Denom)
        (a'.lo / 2 ^ a'.log2Denom) (a'.hi / 2 ^ a'.log2Denom) (g'.lo / 2 ^ g'.log2Denom)
        (g'.hi / 2 ^ g'.log2Denom) := by
  have oa' : (a.lo : ℝ) / 2 ^ a.log2Denom ≤ a.hi / 2 ^ a.log2Denom := (contains_lower oa).2
  have og' : (g.lo : ℝ) / 2 ^ g.log2Denom ≤ g.hi / 2 ^ g.log2Denom := (contains_lower og).2
  have al0 : 0 ≤ a.lo := by
    by_contra hc
    have : (a.lo : ℝ) < 0 := by exact_mod_cast not_le.mp hc
    have := div_neg_of_neg_of_pos this (by positivity : (0:ℝ) < 2 ^ a.log2Denom)
    linarith
  have gl0 : 0 ≤ g.lo := by
    by_contra hc
    have : (g.lo : ℝ) < 0 := by exact_mod_cast not_le.mp hc
    have := div_neg_of_neg_of_pos this (by positivity : (0:ℝ) < 2 ^ g.log2Denom)
    linarith
  have cadd := contains_add (contains_lower oa) (contains_lower og)
  have dadd : (a.add g).log2Denom = max a.log2Denom g.log2Denom := by
    unfold add doOp; split <;> simp <;> omega
  have dmul : (a.mul g).log2Denom = max a.log2Denom g.log2Denom := by
    unfold mul doOp; split <;> simp <;> omega
  obtain ⟨t1, t2⟩ := C02_add_tight a g
  rw [dadd] at t1 t2
  have cmul := contains_mul (contains_lower oa) (contains_lower og)
  have hprod := mul_nonneg_lo a g al0 gl0 oa og
  obtain ⟨⟨x, y, cx, cy, e1⟩, x', y', cx', cy', e2⟩ := mul_attained a g oa og
  rw [dmul] at e1 e2
  set N := max a.log2Denom g.log2Denom with hN
  have hp : (0:ℝ) < 2 ^ N := by positivity
  set a1 : ℝ := (a.lo : ℝ) / 2 ^ a.log2Denom with ha1
  set a2 : ℝ := (a.hi : ℝ) / 2 ^ a.log2Denom with ha2
  set g1 : ℝ := (g.lo : ℝ) / 2 ^ g.log2Denom with hg1
  set g2 : ℝ := (g.hi : ℝ) / 2 ^ g.log2Denom with hg2
  set u : ℝ := 1 / 2 ^ N with hu
  have hu0 : 0 < u := by positivity
  have huv : u + u / m ≤ v := by
    have : (1 + 1 / m) / 2 ^ N = u + u / m := by rw [hu]; field_simp
    linarith
  have hum : 0 < u / m := by positivity
  -- the arithmetic mean
  have hhalf : (a.add g).divInt 2 = some ((a.add g).mulRatio (1 / ((2:Int) : Rat))) := by simp [divInt]
  have chalf := contains_mulRatio cadd (1 / ((2:Int) : Rat))
  have nq : ¬ ((1:Rat) / ((2:Int):Rat) < 0) := by norm_num
  have elo : ((a.add g).mulRatio (1 / ((2:Int) : Rat))).lo = ⌊(1 / ((2:Int) : Rat)) * ((a.add g).lo : Rat)⌋ := by
    unfold mulRatio; simp only [nq, if_false]
  have ehi : ((a.add g).mulRatio (1 / ((2:Int) : Rat))).hi = ⌈(1 / ((2:Int) : Rat)) * ((a.add g).hi : Rat)⌉ := by
    unfold mulRatio; simp only [nq, if_false]
  have eden : ((a.add g).mulRatio (1 / ((2:Int) : Rat))).log2Denom = N := dadd
  set A := (a.add g).mulRatio (1 / ((2:Int) : Rat)) with hA
  have al : (a1 + g1) / 2 - u < A.lo / 2 ^ N := by
    have := Int.lt_floor_add_one ((1 / ((2:Int) : Rat)) * ((a.add g).lo : Rat))
    rw [← elo] at this
    have := (Rat.cast_lt (K := ℝ)).mpr this
    push_cast at this
    rw [← t1, hu, sub_lt_iff_lt_add, ← add_div, lt_div_iff₀ hp]
    calc ((a.add g).lo : ℝ) / 2 ^ N / 2 * 2 ^ N = 1 / 2 * (a.add g).lo := by field_simp
      _ < _ := this
  have au : (A.hi : ℝ) / 2 ^ N < (a2 + g2) / 2 + u := by
    have := Int.ceil_lt_add_one ((1 / ((2:Int) : Rat)) * ((a.add g).hi : Rat))
    rw [← ehi] at this
    have := (Rat.cast_lt (K := ℝ)).mpr this
    push_cast at this
    rw [← t2, hu, div_lt_iff₀ hp]
    calc (A.hi : ℝ) < 1 / 2 * (a.add g).hi + 1 := this
      _ = ((a.add g).hi / 2 ^ N / 2 + 1 / 2 ^ N) * 2 ^ N := by field_simp
  have al' : (A.lo : ℝ) / 2 ^ N ≤ (a1 + g1) / 2 := by
    have := chalf.1
    rw [eden] at this
    push_cast at this
    linarith
  -- the geometric mean
  have oprod : (a.mul g).Ordered := cmul.ordered
  cases hsq : (a.mul g).sqrt with
  | none => rw [sqrt_eq_none_iff _ oprod] at hsq; omega
  | some G =>
    obtain ⟨-, hs⟩ := C05_sqrt (a.mul g) oprod
    obtain ⟨dG, cG, s1, s2⟩ := hs G hsq
    have gl' := (cG _ cmul).1
    have oG : G.Ordered := (cG _ cmul).ordered
    rw [dmul] at s1 s2 dG
    rw [dG] at gl'
    have p1 : a1 * g1 - u < (a.mul g).lo / 2 ^ N := by
      have f1 : a1 ≤ x := cx.1
      have f2 : g1 ≤ y := cy.1
      have f3 : a1 * g1 ≤ x * y := mul_le_mul f1 f2 (by linarith) (by linarith)
      rw [hu, sub_lt_iff_lt_add, ← add_div, lt_div_iff₀ hp]
      nlinarith
    have p2 : ((a.mul g).hi : ℝ) / 2 ^ N < a2 * g2 + u := by
      have f1 : x' ≤ a2 := cx'.2
      have f2 : y' ≤ g2 := cy'.2
      have f0 : a1 ≤ x' := cx'.1
      have f0' : g1 ≤ y' := cy'.1
      have f3 : x' * y' ≤ a2 * g2 := mul_le_mul f1 f2 (by linarith) (by linarith)
      rw [div_lt_iff₀ hp, add_mul, hu, one_div_mul_cancel hp.ne']
      nlinarith
    have mm : m * m ≤ a1 * g1 := mul_le_mul ha hg hm.le (by linarith)
    have mm2 : a1 * g1 ≤ a2 * g2 := mul_le_mul oa' og' (by linarith) (by linarith)
    have r1 := sqrt_sub_ge hm hu0.le mm (by linarith)
    have r2 := sqrt_add_le hm hu0.le (mm.trans mm2)
    refine ⟨A, G, hhalf, rfl, chalf.ordered, oG, eden, dG, ?_⟩
    rw [eden, dG]
    have q1 := Real.sqrt_le_sqrt p1.le
    have q2 := Real.sqrt_le_sqrt p2.le
    constructor
    · linarith only [al, huv, hum]
    · exact al'
    · linarith only [au, huv, hum]
    · linarith only [s1, q1, r1, huv]
    · exact gl'
    · linarith only [s2, q2, r2, huv]

end DFI
end Algebraics
