import Verif.Lemmas.AgmWidth
import Verif.Props.IntervalFn

/-!
Property C11: the arithmetic-geometric mean of two intervals has the larger of their precisions and is never wider
than their hull, and its width goes to zero with the widths of the intervals and with the unit of the precision.
-/

namespace Algebraics

open Filter Topology

namespace DFI

theorem add_log2Denom (a b : DFI) : (a.add b).log2Denom = max a.log2Denom b.log2Denom := by
  unfold add doOp; split <;> simp <;> omega

theorem mul_log2Denom (a b : DFI) : (a.mul b).log2Denom = max a.log2Denom b.log2Denom := by
  unfold mul doOp; split <;> simp <;> omega

theorem union_log2Denom (a b : DFI) : (a.union b).log2Denom = max a.log2Denom b.log2Denom := by
  unfold union doOp; split <;> simp <;> omega

/-- the loop keeps the precision and does not widen the result. -/
theorem agmLoop_le : ∀ (fuel : ℕ) (result am gm next r : DFI) (N : ℕ), result.log2Denom = N → am.log2Denom = N →
    gm.log2Denom = N → next.log2Denom = N → agmLoop fuel result am gm next = some r →
    r.log2Denom = N ∧ r.hi - r.lo ≤ result.hi - result.lo := by
  intro fuel
  induction fuel with
  | zero => intro result am gm next r N _ _ _ _ h; cases h
  | succ fuel ih =>
    intro result am gm next r N h1 h2 h3 h4 h
    unfold agmLoop at h
    split at h
    · next hlt =>
      cases e1 : (am.add gm).divInt 2 with
      | none => simp [e1] at h
      | some am' =>
        cases e2 : (am.mul gm).sqrt with
        | none => simp [e1, e2] at h
        | some gm' =>
          simp only [e1, e2, Option.bind_eq_bind, Option.bind_some] at h
          have d1 : am'.log2Denom = N := by
            rw [divInt_log2Denom e1, add_log2Denom, h2, h3, max_self]
          have d2 : gm'.log2Denom = N := by
            rw [(sqrt_ends e2).1, mul_log2Denom, h2, h3, max_self]
          obtain ⟨r1, r2⟩ := ih next am' gm' (am'.union gm') r N h4 d1 d2
            (by rw [union_log2Denom, d1, d2, max_self]) h
          exact ⟨r1, by omega⟩
    · cases h; exact ⟨h1, le_refl _⟩

/-- the hull of two intervals, as a real number. -/
theorem union_width (a b : DFI) : ((a.union b).hi - (a.union b).lo : ℝ) / 2 ^ (a.union b).log2Denom =
    max ((a.hi : ℝ) / 2 ^ a.log2Denom) (b.hi / 2 ^ b.log2Denom) -
      min ((a.lo : ℝ) / 2 ^ a.log2Denom) (b.lo / 2 ^ b.log2Denom) := by
  obtain ⟨h1, h2⟩ := union_ends a b
  rw [sub_div, h1, h2]

/-- bound on the width of the result of the loop that starts from the pair `a`, `g` of turn `k`. -/
theorem agmLoop_width {m B v κ ρ δ E : ℝ} {N : ℕ} (hm : 0 < m) (hvv : (1 + 1 / m) / 2 ^ N ≤ v) (hvm : v ≤ m / 2)
    (hκ : κ = 4 * v / m) (hρ : 1 ≤ ρ) (hN : N * v ≤ m) (hB : 0 ≤ B)
    (hE1 : (ρ * (1 + κ) ^ N - 1) * B + (δ / 2 ^ N + 2 * v) ≤ E)
    (hE2 : (ρ * (1 + κ) ^ N - 1) * B + 2 * v * (1 + B / m) ≤ E) :
    ∀ (j k : ℕ), k + j = N → ∀ (fuel : ℕ) (a g am gm r : DFI), a.Ordered → g.Ordered →
      max a.log2Denom g.log2Denom = N →
      AgmEnds m B v κ ρ δ k (a.lo / 2 ^ a.log2Denom) (a.hi / 2 ^ a.log2Denom) (g.lo / 2 ^ g.log2Denom)
        (g.hi / 2 ^ g.log2Denom) →
      (a.add g).divInt 2 = some am → (a.mul g).sqrt = some gm →
      agmLoop fuel (a.union g) am gm (am.union gm) = some r →
      (r.hi - r.lo : ℝ) / 2 ^ r.log2Denom ≤ E := by
  have hv : 0 ≤ v := le_trans (by positivity) hvv
  have hκ0 : 0 ≤ κ := by rw [hκ]; positivity
  intro j
  induction j with
  | zero =>
    intro k hk fuel a g am gm r oa og hd he e1 e2 hr
    have hkN : k = N := by omega
    subst hkN
    have d1 : am.log2Denom = k := by rw [divInt_log2Denom e1, add_log2Denom, hd]
    have d2 : gm.log2Denom = k := by rw [(sqrt_ends e2).1, mul_log2Denom, hd]
    have du : (a.union g).log2Denom = k := by rw [union_log2Denom, hd]
    obtain ⟨r1, r2⟩ := agmLoop_le fuel (a.union g) am gm (am.union gm) r k du d1 d2
      (by rw [union_log2Denom, d1, d2, max_self]) hr
    have hw := union_width a g
    have hh := he.hull hκ0 hρ he.hd
    rw [← hw, du] at hh
    have r2' : (r.hi - r.lo : ℝ) ≤ (a.union g).hi - (a.union g).lo := by exact_mod_cast r2
    rw [r1]
    refine le_trans ?_ hE1
    refine le_trans ?_ hh
    gcongr
  | succ j ih =>
    intro k hk fuel a g am gm r oa og hd he e1 e2 hr
    have hkv : k * v ≤ m := by
      have : (k : ℝ) ≤ N := by exact_mod_cast (by omega : k ≤ N)
      exact le_trans (mul_le_mul_of_nonneg_right this hv) hN
    have ma : m ≤ (a.lo : ℝ) / 2 ^ a.log2Denom := by linarith [he.ha]
    have mg : m ≤ (g.lo : ℝ) / 2 ^ g.log2Denom := by linarith [he.hg]
    obtain ⟨am', gm', e1', e2', oam, ogm, d1, d2, st⟩ := agm_step a g oa og m v hm ma mg (by rw [hd]; exact hvv) hvm
    rw [e1] at e1'; cases e1'
    rw [e2] at e2'; cases e2'
    rw [hd] at d1 d2
    have du : (a.union g).log2Denom = N := by rw [union_log2Denom, hd]
    have dn : (am.union gm).log2Denom = N := by rw [union_log2Denom, d1, d2, max_self]
    have hmono : (ρ * (1 + κ) ^ k - 1) * B ≤ (ρ * (1 + κ) ^ N - 1) * B := by
      have : (1 + κ) ^ k ≤ (1 + κ) ^ N := pow_le_pow_right₀ (by linarith) (by omega)
      gcongr
    cases fuel with
    | zero => cases hr
    | succ fuel =>
      unfold agmLoop at hr
      split at hr
      · next hlt =>
        cases f1 : (am.add gm).divInt 2 with
        | none => simp [f1] at hr
        | some am' =>
          cases f2 : (am.mul gm).sqrt with
          | none => simp [f1, f2] at hr
          | some gm' =>
            simp only [f1, f2, Option.bind_eq_bind, Option.bind_some] at hr
            exact ih (k + 1) (by omega) fuel am gm am' gm' r oam ogm (by rw [d1, d2, max_self])
              (he.step st hm hv hvm hκ hρ hkv (contains_lower oam).2 (contains_lower ogm).2) f1 f2 hr
      · next hge =>
        cases hr
        have hge' : ((a.union g).hi - (a.union g).lo : ℝ) ≤ (am.union gm).hi - (am.union gm).lo := by
          exact_mod_cast not_lt.mp hge
        have hst : ((a.union g).hi - (a.union g).lo : ℝ) / 2 ^ (a.union g).log2Denom ≤
            ((am.union gm).hi - (am.union gm).lo : ℝ) / 2 ^ (am.union gm).log2Denom := by
          rw [du, dn]; gcongr
        have hw := union_width a g
        rw [hw, union_width am gm] at hst
        have hs := he.stop st hm hv hkv hst
        have hh := he.hull hκ0 hρ hs
        rw [hw]
        linarith

end DFI

open DFI

/-- C11: the result has the larger of the two precisions, and is never wider than the hull of the operands. -/
theorem C11_agm_within_hull (a b r : DFI) (h : a.agm b = some r) :
    r.log2Denom = max a.log2Denom b.log2Denom ∧
    (r.hi - r.lo : ℝ) / 2 ^ r.log2Denom ≤
      max ((a.hi : ℝ) / 2 ^ a.log2Denom) (b.hi / 2 ^ b.log2Denom) -
        min ((a.lo : ℝ) / 2 ^ a.log2Denom) (b.lo / 2 ^ b.log2Denom) := by
  unfold DFI.agm at h
  split at h
  · cases h
  · cases e1 : (a.add b).divInt 2 with
    | none => simp [e1] at h
    | some am =>
      cases e2 : (a.mul b).sqrt with
      | none => simp [e1, e2] at h
      | some gm =>
        simp only [e1, e2, Option.bind_eq_bind, Option.bind_some] at h
        have d1 : am.log2Denom = max a.log2Denom b.log2Denom := by rw [divInt_log2Denom e1, add_log2Denom]
        have d2 : gm.log2Denom = max a.log2Denom b.log2Denom := by rw [(sqrt_ends e2).1, mul_log2Denom]
        obtain ⟨r1, r2⟩ := agmLoop_le _ _ am gm (am.union gm) r _ (union_log2Denom a b) d1 d2
          (by rw [union_log2Denom, d1, d2, max_self]) h
        refine ⟨r1, ?_⟩
        rw [← union_width a b, r1, union_log2Denom]
        have r2' : (r.hi - r.lo : ℝ) ≤ (a.union b).hi - (a.union b).lo := by exact_mod_cast r2
        gcongr

/-- C11: the arithmetic-geometric mean converges. For all positive numbers `x` and `y` and every `ε`, intervals
around `x` and `y` that are narrow enough, the finer of them precise enough, give a result narrower than `ε`: the
loop does not stop too early. -/
theorem C11_agm_converges (x y ε : ℝ) (hx : 0 < x) (hy : 0 < y) (hε : 0 < ε) :
    ∃ δ > 0, ∃ D : ℕ, ∀ a b : DFI, a.Contains x → b.Contains y →
      (a.hi - a.lo : ℝ) / 2 ^ a.log2Denom < δ → (b.hi - b.lo : ℝ) / 2 ^ b.log2Denom < δ →
      D ≤ max a.log2Denom b.log2Denom →
      ∃ r, a.agm b = some r ∧ (r.hi - r.lo : ℝ) / 2 ^ r.log2Denom < ε := by
  obtain ⟨m, hm, hmx, hmy⟩ : ∃ m > 0, 4 * m ≤ x ∧ 4 * m ≤ y :=
    ⟨min x y / 4, by positivity, by linarith [min_le_left x y], by linarith [min_le_right x y]⟩
  obtain ⟨B, hBx, hBy⟩ : ∃ B, x ≤ B ∧ y ≤ B := ⟨max x y, le_max_left _ _, le_max_right _ _⟩
  have hB : 0 < B := by linarith
  set c := 1 + 1 / m with hc
  have hc0 : 0 < c := by positivity
  set K := 16 * B * c / m + B + 2 * c + 2 * c * (1 + B / m) with hK
  have hK0 : 0 < K := by positivity
  -- the unit of the precision times the precision goes to zero
  have hlim : Tendsto (fun n : ℕ => (n : ℝ) * (1 / 2) ^ n) atTop (𝓝 0) :=
    tendsto_self_mul_const_pow_of_lt_one (by norm_num) (by norm_num)
  obtain ⟨τ, hτ, t1, t2, t3⟩ : ∃ τ > 0, τ * K ≤ ε / 2 ∧ c * τ ≤ m / 2 ∧ 4 * c / m * τ ≤ 1 := by
    refine ⟨min (ε / (2 * K)) (min (m / (2 * c)) (m / (4 * c))), by positivity, ?_, ?_, ?_⟩
    · calc _ ≤ ε / (2 * K) * K := by gcongr; exact min_le_left _ _
        _ = ε / 2 := by field_simp
    · calc _ ≤ c * (m / (2 * c)) := by gcongr; exact (min_le_right _ _).trans (min_le_left _ _)
        _ = m / 2 := by field_simp
    · calc _ ≤ 4 * c / m * (m / (4 * c)) := by gcongr; exact (min_le_right _ _).trans (min_le_right _ _)
        _ = 1 := by field_simp
  obtain ⟨D, hD⟩ := eventually_atTop.mp (hlim.eventually_lt_const hτ)
  obtain ⟨δ, hδ, d1, d2⟩ : ∃ δ > 0, δ ≤ 2 * m ∧ B * (δ / (2 * m)) < ε / 2 := by
    refine ⟨min (2 * m) (ε * m / (2 * B)), by positivity, min_le_left _ _, ?_⟩
    calc _ ≤ B * (ε * m / (2 * B) / (2 * m)) := by gcongr; exact min_le_right _ _
      _ = ε / 4 := by field_simp; ring
      _ < ε / 2 := by linarith
  refine ⟨δ, hδ, max D 1, fun a b ca cb wa wb hDN => ?_⟩
  set N := max a.log2Denom b.log2Denom with hN
  have hN1 : 1 ≤ N := le_trans (le_max_right _ _) hDN
  have ht := hD N (le_trans (le_max_left _ _) hDN)
  set t : ℝ := N * (1 / 2) ^ N with htd
  have hNr : (1:ℝ) ≤ N := by exact_mod_cast hN1
  have hu : (1:ℝ) / 2 ^ N ≤ t := by
    rw [htd, one_div_pow]
    exact le_mul_of_one_le_left (by positivity) hNr
  have ht0 : 0 < t := lt_of_lt_of_le (by positivity) hu
  have oa := ca.ordered
  have ob := cb.ordered
  rw [sub_div] at wa wb
  obtain ⟨ca1, ca2⟩ := ca
  obtain ⟨cb1, cb2⟩ := cb
  have la : 2 * m ≤ (a.lo : ℝ) / 2 ^ a.log2Denom := by linarith
  have lb : 2 * m ≤ (b.lo : ℝ) / 2 ^ b.log2Denom := by linarith
  set v := c / 2 ^ N with hv
  have hvt : v ≤ c * t := by
    rw [hv, div_eq_mul_one_div]; gcongr
  have hv0 : 0 < v := by positivity
  have hct : c * t ≤ m / 2 := le_trans (by gcongr) t2
  have hvN : N * v = c * t := by rw [hv, htd, one_div_pow]; field_simp
  set κ := 4 * v / m with hκ
  have hκ0 : 0 < κ := by positivity
  have hκN : κ * N = 4 * c / m * t := by
    rw [hκ]; calc 4 * v / m * N = 4 * (N * v) / m := by ring
      _ = _ := by rw [hvN]; ring
  have hκN1 : κ * N ≤ 1 := by rw [hκN]; exact le_trans (by gcongr) t3
  have hpow : (1 + κ) ^ N ≤ 1 + 2 * (κ * N) := by
    have h1 : (1 + κ) ^ N ≤ Real.exp (κ * N) := by
      rw [mul_comm, Real.exp_nat_mul]
      gcongr
      linarith [Real.add_one_le_exp κ]
    have h2 := Real.abs_exp_sub_one_le (x := κ * N) (by rw [abs_of_nonneg (by positivity)]; exact hκN1)
    rw [abs_of_nonneg (by positivity : 0 ≤ κ * N)] at h2
    linarith [(abs_le.mp h2).2]
  set ρ := 1 + δ / (2 * m) with hρ
  have hρ0 : 0 ≤ δ / (2 * m) := by positivity
  have hρ1 : δ / (2 * m) ≤ 1 := by rw [div_le_one (by positivity)]; exact d1
  have hPB : (ρ * (1 + κ) ^ N - 1) * B ≤ B * (δ / (2 * m)) + 16 * B * c / m * t := by
    have h1 : ρ * (1 + κ) ^ N - 1 ≤ δ / (2 * m) + 4 * (κ * N) := by
      have : ρ * (1 + κ) ^ N ≤ ρ * (1 + 2 * (κ * N)) := by gcongr
      have : 0 ≤ κ * N := by positivity
      nlinarith
    calc _ ≤ (δ / (2 * m) + 4 * (κ * N)) * B := by gcongr
      _ = _ := by rw [hκN]; ring
  have hvK : 2 * v ≤ 2 * c * t := by linarith
  have hvK2 : 2 * v * (1 + B / m) ≤ 2 * c * (1 + B / m) * t := by
    calc _ ≤ 2 * (c * t) * (1 + B / m) := by gcongr
      _ = _ := by ring
  have hBu : B / 2 ^ N ≤ B * t := by rw [div_eq_mul_one_div]; gcongr
  have hKt : K * t ≤ ε / 2 := le_trans (by rw [mul_comm]; gcongr) t1
  have hKe : K * t = 16 * B * c / m * t + B * t + 2 * c * t + 2 * c * (1 + B / m) * t := by rw [hK]; ring
  have hcm : 0 ≤ 2 * c * (1 + B / m) * t := by positivity
  have hct0 : 0 < 2 * c * t := by positivity
  have hBt : 0 < B * t := by positivity
  have nn : ∀ d : DFI, 2 * m ≤ (d.lo : ℝ) / 2 ^ d.log2Denom → ¬ d.lo < 0 := by
    intro d hd hneg
    have : (d.lo : ℝ) < 0 := by exact_mod_cast hneg
    have := div_neg_of_neg_of_pos this (by positivity : (0:ℝ) < 2 ^ d.log2Denom)
    linarith
  have na := nn a la
  have nb := nn b lb
  obtain ⟨r, hr, -⟩ := C11_agm a b oa ob (not_lt.mp na) (not_lt.mp nb)
  refine ⟨r, hr, ?_⟩
  have hr' := hr
  unfold DFI.agm at hr'
  rw [if_neg (not_or.mpr ⟨na, nb⟩)] at hr'
  cases e1 : (a.add b).divInt 2 with
  | none => simp [e1] at hr'
  | some am =>
    cases e2 : (a.mul b).sqrt with
    | none => simp [e1, e2] at hr'
    | some gm =>
      simp only [e1, e2, Option.bind_eq_bind, Option.bind_some] at hr'
      have ends : AgmEnds m B v κ ρ B 0 (a.lo / 2 ^ a.log2Denom) (a.hi / 2 ^ a.log2Denom)
          (b.lo / 2 ^ b.log2Denom) (b.hi / 2 ^ b.log2Denom) := by
        have ratio : ∀ p q : ℝ, 2 * m ≤ p → q - p < δ → q ≤ ρ * (1 + κ) ^ 0 * p := by
          intro p q hp hq
          have : δ = δ / (2 * m) * (2 * m) := by field_simp
          have := mul_le_mul_of_nonneg_left hp hρ0
          rw [pow_zero, mul_one, hρ]
          linarith
        constructor
        · simpa using la
        · simpa using lb
        · linarith
        · linarith
        · exact ratio _ _ la wa
        · exact ratio _ _ lb wb
        · linarith
        · linarith
        · rw [pow_zero, div_one, abs_le]; constructor <;> linarith
      have := agmLoop_width (E := B * (δ / (2 * m)) + K * t) hm (le_refl v) (by linarith) hκ (by linarith) (by linarith) hB.le
        (by linarith only [hPB, hBu, hvK, hcm, hKe]) (by linarith only [hPB, hvK2, hKe, hct0, hBt]) N 0 (by omega) _ a b am gm r oa ob rfl ends e1 e2 hr'
      linarith

/-- the two intervals of this example meet the hypotheses of the convergence at every precision. -/
example (n : ℕ) : (⟨2 ^ n, 2 ^ n + 1, n⟩ : DFI).Contains 1 ∧ (⟨3 * 2 ^ n, 3 * 2 ^ n + 1, n⟩ : DFI).Contains 3 ∧
    (((⟨2 ^ n, 2 ^ n + 1, n⟩ : DFI).hi - (⟨2 ^ n, 2 ^ n + 1, n⟩ : DFI).lo : ℝ) / 2 ^ n = 1 / 2 ^ n) := by
  have hp : (0:ℝ) < 2 ^ n := by positivity
  unfold DFI.Contains
  push_cast
  refine ⟨⟨by rw [div_self hp.ne'], ?_⟩, ⟨by rw [mul_div_cancel_right₀ _ hp.ne'], ?_⟩, by ring⟩
  · rw [le_div_iff₀ hp]; linarith
  · rw [le_div_iff₀ hp]; linarith

/-- a concrete mean that returns. -/
example : ∃ r, (⟨16, 17, 4⟩ : DFI).agm ⟨48, 49, 4⟩ = some r :=
  (C11_agm ⟨16, 17, 4⟩ ⟨48, 49, 4⟩ (by unfold DFI.Ordered; norm_num) (by unfold DFI.Ordered; norm_num)
    (by norm_num) (by norm_num)).imp fun _ h => h.1

end Algebraics
