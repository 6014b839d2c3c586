import Verif.Props.AlgNumFalse
import Verif.Lemmas.PowInterval
import Verif.Lemmas.AlgNumDegree

/-!
C47: powers of real algebraic numbers with rational exponents (`/repo/src/algebraic_numbers.rs`,
`checked_pow_impl`).
-/

namespace Algebraics

open Polynomial

namespace RealAlg

/-! ## `select_root` when nothing is known about the widths of the intervals -/

theorem selectRoot_eq_loop {σ : Type} {getInterval : σ → Option DFI} {shrinkInterval : σ → Option σ}
    (F : FactorCall) (R : Poly ℤ) (r : Poly.Factors) (hF : F R = .ok r)
    (hr : FactorsOf r R.toPoly) (st : σ) (fuel : ℕ) :
    selectRoot getInterval shrinkInterval F fuel st R =
      selectLoop getInterval shrinkInterval fuel st ((r.factors.map (·.1)).map seqOf) := by
  have hmap : ∀ l : List (Poly ℤ × ℕ), (∀ e ∈ l, e.1.toPoly ≠ 0) →
      l.mapM (fun f => f.1.primitiveSturmSequence Poly.intGcd) =
        some ((l.map (·.1)).map seqOf) := by
    intro l
    induction l with
    | nil => intro _; rfl
    | cons e l ih =>
      intro hl
      rw [List.mapM_cons, ih fun e he => hl e (by simp [he]),
        (seqOf_spec e.1 (hl e (by simp))).1]
      rfl
  unfold selectRoot
  rw [hF]
  simp only [bind, Except.bind]
  rw [hmap _ fun e he => (hr.irreducible e he).ne_zero]
  rfl

theorem factor_root_root {r : Poly.Factors} {f : ℤ[X]} (hr : FactorsOf r f) (e : Poly ℤ × ℕ)
    (he : e ∈ r.factors) (y : ℝ) (hy : aeval y e.1.toPoly = 0) : aeval y f = 0 := by
  rw [← hr.product, map_mul]
  apply mul_eq_zero_of_right
  unfold Poly.powerProduct
  rw [map_list_prod, List.prod_eq_zero_iff, List.map_map, List.mem_map]
  refine ⟨e, he, ?_⟩
  simp [hy, (hr.powers e he).ne']

theorem selectLoop_returns {σ : Type} {getInterval : σ → Option DFI} {shrinkInterval : σ → Option σ}
    {Inv : ℕ → σ → Prop} {v : ℝ} {total : ℕ}
    (hget : ∀ k st i, k < total → Inv k st → getInterval st = some i → i.Contains v)
    (hshrink : ∀ k st st', Inv k st → shrinkInterval st = some st' → Inv (k + 1) st') (c : RealAlg)
    (fuel : ℕ) : ∀ (k : ℕ) (st : σ) (ps : List (Poly ℤ)), k + fuel ≤ total → Inv k st →
    (∀ p ∈ ps, Irreducible p.toPoly ∧ 0 < p.toPoly.leadingCoeff) →
    (∃ p ∈ ps, aeval v p.toPoly = 0) →
    selectLoop getInterval shrinkInterval fuel st (ps.map seqOf) = .ok c →
    c.Represents v ∨ ∃ q : ℚ, c = ofRat q ∧ (q : ℝ) ≠ v ∧ (∃ p ∈ ps, (aeval (q : ℝ) p.toPoly : ℝ) = 0) ∧
      ∃ k st i, Inv k st ∧ getInterval st = some i ∧ (q = i.lowerBound ∨ q = i.upperBound) := by
  induction fuel with
  | zero => intro k st ps _ _ _ _ h; simp [selectLoop] at h
  | succ fuel ih =>
    intro k st ps hk hinv hps hv h
    rcases hi : getInterval st with _ | i
    · simp [selectLoop, hi] at h
    · rcases selectLoop_turn (shrinkInterval := shrinkInterval) st hi
        (hget k st i (by omega) hinv hi) ps hps hv fuel with ⟨c', h1, h2⟩ | ⟨q, h1, h2, h3, h4⟩ | ⟨-, kept, h1, h2, h3⟩
      · rw [h] at h1; cases h1; exact Or.inl h2
      · rw [h] at h1; cases h1; exact Or.inr ⟨q, rfl, h2, h3, k, st, i, hinv, hi, h4⟩
      · rw [h] at h3
        rcases hst : shrinkInterval st with _ | st'
        · rw [hst] at h3; cases h3
        · rw [hst] at h3
          rcases ih (k + 1) st' kept (by omega) (hshrink k st st' hinv hst)
            (fun p hp => hps p (h1.subset hp)) h2 h3.symm with h4 | ⟨q, q1, q2, ⟨p, q3, q4⟩, q5⟩
          · exact Or.inl h4
          · exact Or.inr ⟨q, q1, q2, ⟨p, h1.subset q3, q4⟩, q5⟩

/-- if every interval that is asked for holds the root, what is returned is the root, or another,
rational root, at an end of one of the intervals. -/
theorem selectRoot_returns {σ : Type} {getInterval : σ → Option DFI} {shrinkInterval : σ → Option σ}
    {Inv : ℕ → σ → Prop} {v : ℝ} (fuel : ℕ)
    (hget : ∀ k st i, k < fuel → Inv k st → getInterval st = some i → i.Contains v)
    (hshrink : ∀ k st st', Inv k st → shrinkInterval st = some st' → Inv (k + 1) st')
    (F : FactorCall) (R : Poly ℤ) (hR : R.toPoly ≠ 0) (r : Poly.Factors) (hF : F R = .ok r)
    (hr : FactorsOf r R.toPoly) (hv : aeval v R.toPoly = 0) (st : σ) (hinv : Inv 0 st)
    (c : RealAlg) (h : selectRoot getInterval shrinkInterval F fuel st R = .ok c) :
    c.Represents v ∨ ∃ q : ℚ, c = ofRat q ∧ (q : ℝ) ≠ v ∧ (aeval (q : ℝ) R.toPoly : ℝ) = 0 ∧
      ∃ k st i, Inv k st ∧ getInterval st = some i ∧ (q = i.lowerBound ∨ q = i.upperBound) := by
  rw [selectRoot_eq_loop F R r hF hr] at h
  obtain ⟨e, he, hev⟩ := factors_root hr hR v hv
  rcases selectLoop_returns hget hshrink c fuel 0 st _ (by omega) hinv (by
    intro p hp
    obtain ⟨e, he, rfl⟩ := List.mem_map.mp hp
    exact ⟨hr.irreducible e he, hr.positive e he⟩) ⟨e.1, List.mem_map.mpr ⟨e, he, rfl⟩, hev⟩ h with
    h1 | ⟨q, q1, q2, ⟨p, q3, q4⟩, q5⟩
  · exact Or.inl h1
  · obtain ⟨e, he, rfl⟩ := List.mem_map.mp q3
    exact Or.inr ⟨q, q1, q2, factor_root_root hr e he _ q4, q5⟩

/-- if the first interval holds no root besides `v`, `v` is returned in the first turn. -/
theorem selectRoot_single {σ : Type} {getInterval : σ → Option DFI} {shrinkInterval : σ → Option σ}
    {v : ℝ} {i : DFI} (F : FactorCall) (R : Poly ℤ) (hR : R.toPoly ≠ 0) (r : Poly.Factors)
    (hF : F R = .ok r) (hr : FactorsOf r R.toPoly) (hv : aeval v R.toPoly = 0) (st : σ)
    (hi : getInterval st = some i) (hiv : i.Contains v)
    (honly : ∀ y : ℝ, i.Contains y → aeval y R.toPoly = 0 → y = v) (fuel : ℕ) :
    ∃ c, selectRoot getInterval shrinkInterval F (fuel + 1) st R = .ok c ∧ c.Represents v := by
  rw [selectRoot_eq_loop F R r hF hr]
  obtain ⟨e, he, hev⟩ := factors_root hr hR v hv
  obtain ⟨hl, hu⟩ := (DFI.contains_iff_bounds _ _).mp hiv
  rcases selectLoop_turn (shrinkInterval := shrinkInterval) st hi hiv (r.factors.map (·.1)) (by
    intro p hp
    obtain ⟨e, he, rfl⟩ := List.mem_map.mp hp
    exact ⟨hr.irreducible e he, hr.positive e he⟩) ⟨e.1, List.mem_map.mpr ⟨e, he, rfl⟩, hev⟩ fuel
    with ⟨c', h1, h2⟩ | ⟨q, h1, h2, ⟨p, h3, h4⟩, h5⟩ | ⟨h1, -⟩
  · exact ⟨c', h1, h2⟩
  · exfalso
    obtain ⟨e, he, rfl⟩ := List.mem_map.mp h3
    refine h2 (honly q ?_ (factor_root_root hr e he _ h4))
    rw [DFI.contains_iff_bounds]
    rcases h5 with rfl | rfl
    · exact ⟨le_refl _, hl.trans hu⟩
    · exact ⟨hl.trans hu, le_refl _⟩
  · exfalso
    have := sum_rootCount_le i.lowerBound i.upperBound v (r.factors.map (·.1)) (fun p hp => by
      obtain ⟨e, he, rfl⟩ := List.mem_map.mp hp
      refine ⟨(hr.irreducible e he).ne_zero, fun y hy1 hy2 hy3 => ?_⟩
      exact honly y ((DFI.contains_iff_bounds _ _).mpr ⟨hy1.le, hy2.le⟩)
        (factor_root_root hr e he _ hy3)) (by rw [List.pairwise_map]; exact hr.coprime)
    omega

/-- if the first interval holds no root besides `v`, nothing but `v` is returned, even if the interval
does not hold `v`. -/
theorem selectRoot_sound {σ : Type} {getInterval : σ → Option DFI} {shrinkInterval : σ → Option σ}
    {v : ℝ} (F : FactorCall) (R : Poly ℤ) (r : Poly.Factors)
    (hF : F R = .ok r) (hr : FactorsOf r R.toPoly) (st : σ)
    (hord : ∀ i, getInterval st = some i → i.lo ≤ i.hi)
    (honly : ∀ i, getInterval st = some i → ∀ y : ℝ, i.Contains y → aeval y R.toPoly = 0 → y = v)
    (fuel : ℕ) (c : RealAlg) (h : selectRoot getInterval shrinkInterval F fuel st R = .ok c) :
    c.Represents v := by
  classical
  rw [selectRoot_eq_loop F R r hF hr] at h
  rcases fuel with _ | fuel
  · simp [selectLoop] at h
  rcases hi : getInterval st with _ | i
  · simp [selectLoop, hi] at h
  have hlu : i.lowerBound ≤ i.upperBound := by
    have : (i.Contains (i.lowerBound : ℝ)) := by
      have := DFI.contains_lower (a := i) (hord i hi)
      convert this using 1
      simp [DFI.lowerBound, shl]
    exact_mod_cast ((DFI.contains_iff_bounds _ _).mp this).2
  have hlu' : (i.lowerBound : ℝ) ≤ i.upperBound := by exact_mod_cast hlu
  have hroot : ∀ p ∈ r.factors.map (·.1), ∀ y : ℝ, i.Contains y → aeval y p.toPoly = 0 → y = v := by
    intro p hp y hy h0
    obtain ⟨e, he, rfl⟩ := List.mem_map.mp hp
    exact honly i hi y hy (factor_root_root hr e he _ h0)
  have hirr : ∀ p ∈ r.factors.map (·.1), Irreducible p.toPoly ∧ 0 < p.toPoly.leadingCoeff := by
    intro p hp
    obtain ⟨e, he, rfl⟩ := List.mem_map.mp hp
    exact ⟨hr.irreducible e he, hr.positive e he⟩
  have hpw : (r.factors.map (·.1)).Pairwise (fun p q => IsCoprime (p.toPoly.map (Int.castRingHom ℚ))
      (q.toPoly.map (Int.castRingHom ℚ))) := by rw [List.pairwise_map]; exact hr.coprime
  generalize r.factors.map (·.1) = ps at h hroot hirr hpw
  simp only [selectLoop, hi] at h
  rcases scan_spec i.lowerBound i.upperBound hlu ps (fun p hp => (hirr p hp).1.ne_zero) 0 [] with
    ⟨q, h1, h2, p, h3, h4⟩ | ⟨h1, h2⟩
  · rw [h1] at h
    cases h
    have hq : i.Contains (q : ℝ) := by
      rw [DFI.contains_iff_bounds]
      rcases h2 with rfl | rfl
      · exact ⟨le_refl _, hlu'⟩
      · exact ⟨hlu', le_refl _⟩
    rw [← hroot p h3 q hq h4]
    exact ofRat_represents q
  · rw [h1] at h
    simp only [zero_add, List.nil_append] at h
    have hsum := sum_rootCount_le i.lowerBound i.upperBound v ps (fun p hp =>
      ⟨(hirr p hp).1.ne_zero, fun y hy1 hy2 hy3 =>
        hroot p hp y ((DFI.contains_iff_bounds _ _).mpr ⟨hy1.le, hy2.le⟩) hy3⟩) hpw
    rw [if_pos hsum] at h
    rcases hk : ps.filter (fun p => rootCount i.lowerBound i.upperBound p ≠ 0) with _ | ⟨p, l⟩
    · rw [hk] at h; cases h
    · rw [hk] at h
      have hp : p ∈ ps.filter (fun p => rootCount i.lowerBound i.upperBound p ≠ 0) := by rw [hk]; simp
      obtain ⟨hp1, hp2⟩ := List.mem_filter.mp hp
      have hp3 : rootCount i.lowerBound i.upperBound p ≠ 0 := by simpa using hp2
      obtain ⟨-, h5, -⟩ := seqOf_spec p (hirr p hp1).1.ne_zero
      simp only [List.map_cons, h5, Option.getD_some] at h
      cases h
      obtain ⟨y, hy1, hy2, hy3⟩ := Set.nonempty_of_ncard_ne_zero hp3
      have hyc : i.Contains y := (DFI.contains_iff_bounds _ _).mpr ⟨hy1.le, hy2.le⟩
      have hyv := hroot p hp1 y hyc hy3
      rw [← hyv]
      exact ⟨(hirr p hp1).1, fun _ => (hirr p hp1).2, hy3, hyc,
        fun z hz hz0 => by rw [hroot p hp1 z hz hz0, hyv]⟩

/-! ## The value -/

theorem powValue_pow (x : ℝ) (e : ℚ) (he : 0 < e) (hx : 0 < x ∨ e.den = 1) :
    powValue x e ^ e.den = x ^ e.num.natAbs := by
  have hn : 0 < e.num := Rat.num_pos.mpr he
  have hn' : ((e.num.natAbs : ℕ) : ℤ) = e.num := Int.natAbs_of_nonneg hn.le
  unfold powValue
  by_cases hd : e.den = 1
  · rw [if_pos hd, hd, pow_one, ← hn', zpow_natCast, Int.natAbs_natCast]
  · rw [if_neg hd]
    rcases hx with hx | hx
    · rw [← Real.rpow_natCast, ← Real.rpow_mul hx.le, ← Real.rpow_natCast]
      congr 1
      have h1 : (e : ℝ) = e.num / e.den := by exact_mod_cast (Rat.num_div_den e).symm
      have h2 : (e.den : ℝ) ≠ 0 := by exact_mod_cast e.den_nz
      rw [h1, div_mul_cancel₀ _ h2]
      rw [← Int.cast_natCast (R := ℝ), hn']
    · exact absurd hx hd

theorem powValue_pos (x : ℝ) (e : ℚ) (hx : 0 < x) : 0 < powValue x e := by
  unfold powValue
  split
  · exact zpow_pos hx _
  · exact Real.rpow_pos_of_pos hx _

theorem powValue_neg (x : ℝ) (e : ℚ) (hx : 0 < x ∨ e.den = 1) : powValue x (-e) = powValue x⁻¹ e := by
  unfold powValue
  have hd : (-e).den = e.den := Rat.neg_den e
  rw [hd]
  by_cases h : e.den = 1
  · rw [if_pos h, if_pos h, Rat.neg_num, zpow_neg, inv_zpow]
  · rw [if_neg h, if_neg h]
    have hx : 0 < x := hx.resolve_right h
    push_cast
    rw [Real.rpow_neg hx.le, Real.inv_rpow hx.le]

theorem powValue_int (x : ℝ) (k : ℤ) : powValue x (k : ℚ) = x ^ k := by
  unfold powValue
  rw [if_pos (by simp)]
  simp

/-! ## Special exponents and bases -/

theorem zero_represents : zero.Represents 0 := by
  have := ofInt_represents 0
  rwa [Int.cast_zero] at this

theorem one_represents : one.Represents 1 := by
  have := ofInt_represents 1
  rwa [Int.cast_one] at this

theorem negativeOne_represents : negativeOne.Represents (-1) := by
  have := ofInt_represents (-1)
  rwa [Int.cast_neg, Int.cast_one] at this

/-- C47: the exponent zero gives one, and `None` for the base zero. -/
theorem C47_exponent_zero (ln2 : ℕ → ℕ → DFI) (F : FactorCall) (fuel : ℕ) (a : RealAlg) (x : ℝ)
    (h : a.Represents x) :
    (x ≠ 0 → ∃ c, a.checkedPow ln2 F fuel 0 = .ok (some c) ∧ c.Represents 1) ∧
    (x = 0 → a.checkedPow ln2 F fuel 0 = .ok none) := by
  unfold checkedPow
  rw [if_pos rfl]
  constructor
  · intro hx
    have : a.isZero = false := by
      rw [Bool.eq_false_iff]; exact fun e => hx (h.isZero_iff.mp e)
    rw [this]
    exact ⟨one, rfl, one_represents⟩
  · intro hx
    rw [h.isZero_iff.mpr hx]
    rfl

/-- C47: the exponent one changes nothing. -/
theorem C47_exponent_one (ln2 : ℕ → ℕ → DFI) (F : FactorCall) (fuel : ℕ) (a : RealAlg) :
    a.checkedPow ln2 F fuel 1 = .ok (some a) := by
  unfold checkedPow
  rw [if_neg one_ne_zero, if_pos rfl]
  rfl

/-- C47: powers of zero: zero for positive exponents, `None` for negative ones. -/
theorem C47_base_zero (ln2 : ℕ → ℕ → DFI) (F : FactorCall) (fuel : ℕ) (a : RealAlg) (h : a.Represents 0)
    (e : ℚ) :
    (0 < e → ∃ c, a.checkedPow ln2 F fuel e = .ok (some c) ∧ c.Represents 0) ∧
    (e < 0 → a.checkedPow ln2 F fuel e = .ok none) := by
  have hz : a.isZero = true := h.isZero_iff.mpr rfl
  have h0 : zero.Represents 0 := zero_represents
  unfold checkedPow
  constructor
  · intro he
    rw [if_neg he.ne']
    by_cases h1 : e = 1
    · rw [if_pos h1]; exact ⟨a, rfl, h⟩
    · rw [if_neg h1, if_neg (by linarith), if_pos hz, if_neg (by linarith)]
      exact ⟨zero, rfl, h0⟩
  · intro he
    rw [if_neg he.ne, if_neg (by linarith)]
    by_cases h1 : e = -1
    · rw [if_pos h1]
      exact (C40_recip_rational a 0 (by simpa using h) fuel).1 rfl
    · rw [if_neg h1, if_pos hz, if_pos he]
      rfl

theorem ratPow_eq (q : ℚ) (k : ℤ) :
    ratPow q (decide ((k : ℚ) < 0)) k.natAbs = q ^ k := by
  have e1 : ((q.num : ℚ) / q.den) = q := Rat.num_div_den q
  unfold ratPow
  rcases lt_or_ge k 0 with hk | hk
  · have : (k : ℚ) < 0 := by exact_mod_cast hk
    simp only [this, decide_true, if_true]
    obtain ⟨n, rfl⟩ : ∃ n : ℕ, k = -n := ⟨k.natAbs, by omega⟩
    rw [zpow_neg, zpow_natCast, Int.natAbs_neg, Int.natAbs_natCast, ← div_pow, ← inv_div, inv_pow, e1]
  · have : ¬ (k : ℚ) < 0 := by push Not; exact_mod_cast hk
    simp only [this, decide_false, Bool.false_eq_true, if_false]
    obtain ⟨n, rfl⟩ : ∃ n : ℕ, k = n := ⟨k.natAbs, by omega⟩
    rw [zpow_natCast, Int.natAbs_natCast, ← div_pow, e1]

/-- C47: integer powers of a rational number that is not zero are exact. -/
theorem C47_integer_power_rational (ln2 : ℕ → ℕ → DFI) (F : FactorCall) (fuel : ℕ) (a : RealAlg) (q : ℚ)
    (h : a.Represents q) (hq : q ≠ 0) (k : ℤ) :
    ∃ c, a.checkedPow ln2 F fuel k = .ok (some c) ∧ c.Represents ((q : ℝ) ^ k) := by
  classical
  have hqr : (q : ℝ) ≠ 0 := by exact_mod_cast hq
  have hone : one.Represents 1 := one_represents
  have hm1 : negativeOne.Represents (-1) := negativeOne_represents
  have hiz : a.isZero = false := by
    rw [Bool.eq_false_iff]; exact fun e => hqr (h.isZero_iff.mp e)
  unfold checkedPow
  by_cases h0 : (k : ℚ) = 0
  · rw [if_pos h0, hiz]
    have : k = 0 := by exact_mod_cast h0
    rw [this, zpow_zero]
    exact ⟨one, rfl, hone⟩
  rw [if_neg h0]
  by_cases h1 : (k : ℚ) = 1
  · rw [if_pos h1]
    have : k = 1 := by exact_mod_cast h1
    rw [this, zpow_one]
    exact ⟨a, rfl, h⟩
  rw [if_neg h1]
  by_cases h2 : (k : ℚ) = -1
  · rw [if_pos h2]
    have : k = -1 := by exact_mod_cast h2
    rw [this, zpow_neg_one]
    exact (C40_recip_rational a q h fuel).2 hq
  rw [if_neg h2, hiz, if_neg (by simp)]
  by_cases h3 : a.isOne = true
  · rw [if_pos h3, h.isOne_iff.mp h3, one_zpow]
    exact ⟨one, rfl, hone⟩
  rw [if_neg h3]
  have hden : (k : ℚ).den = 1 := by simp
  have hnum : (k : ℚ).num = k := by simp
  by_cases h4 : a.isNegativeOne = true
  · rw [if_pos h4, h.isNegativeOne_iff.mp h4, if_pos hden, hnum]
    by_cases h5 : k % 2 ≠ 0
    · rw [if_pos h5]
      have : Odd k := Int.odd_iff.mpr (by omega)
      exact ⟨negativeOne, rfl, by rw [this.neg_one_zpow]; exact hm1⟩
    · rw [if_neg h5]
      have : Even k := Int.even_iff.mpr (by omega)
      exact ⟨one, rfl, by rw [this.neg_one_zpow]; exact hone⟩
  rw [if_neg h4]
  unfold powTail
  rw [h.isNegative_eq]
  simp only [bind, Except.bind]
  rw [hden, hnum, h.toRational_rat]
  simp only [ne_eq, not_true_eq_false, decide_false, Bool.and_false, Bool.false_eq_true, if_false, if_true]
  refine ⟨_, rfl, ?_⟩
  rw [ratPow_eq q k]
  have := ofRat_represents (q ^ k)
  push_cast at this
  exact this

/-! ## When there is no result -/

theorem ok_some_ne_none {α : Type} (m : Except Stop α) :
    (m >>= fun r => (pure (some r) : Except Stop (Option α))) ≠ .ok none := by
  cases m <;> simp [bind, Except.bind, pure, Except.pure]

theorem powTail_none (ln2 : ℕ → ℕ → DFI) (F : FactorCall) (fuel : ℕ) (a : RealAlg) (x : ℝ)
    (h : a.Represents x) (e : ℚ) (h1 : x < 0) (h2 : e.den ≠ 1) : a.powTail ln2 F fuel e = .ok none := by
  classical
  unfold powTail
  rw [h.isNegative_eq]
  simp [bind, Except.bind, pure, Except.pure, h1, h2]

/-- what is left of `checked_pow` after the special exponents and bases -/
theorem powTail_general (ln2 : ℕ → ℕ → DFI) (F : FactorCall) (fuel : ℕ) (a : RealAlg) (x : ℝ)
    (h : a.Represents x) (e : ℚ) [Decidable (x < 0)] (h1 : ¬ (x < 0 ∧ e.den ≠ 1))
    (h2 : e.den ≠ 1 ∨ Irrational x) :
    a.powTail ln2 F fuel e =
      (a.powGeneral ln2 F fuel (decide (e < 0)) e.num.natAbs e.den
        (decide (x < 0) && decide (e.num % 2 ≠ 0)) >>= fun r => pure (some r)) := by
  unfold powTail
  rw [h.isNegative_eq]
  simp only [bind, Except.bind]
  rw [if_neg (by simpa [not_and] using h1)]
  by_cases hd : e.den = 1
  · rw [if_pos hd, h.toRational_irr (h2.resolve_left (not_not.mpr hd))]
  · rw [if_neg hd]

/-- C47, with the actual condition: there is no result exactly for powers of zero with an exponent that
is not positive, and for powers of negative numbers with an exponent that is not an integer. (The
claim said: for zero to a negative power and even roots of negative numbers; see `C47_none_false`.) -/
theorem C47_none_iff_partial (ln2 : ℕ → ℕ → DFI) (F : FactorCall) (fuel : ℕ) (a : RealAlg) (x : ℝ)
    (h : a.Represents x) (e : ℚ) :
    (a.checkedPow ln2 F fuel e = .ok none → (x = 0 ∧ e ≤ 0) ∨ (x < 0 ∧ e.den ≠ 1)) ∧
    ((x = 0 ∧ e ≤ 0) ∨ (x < 0 ∧ e.den ≠ 1) → a.checkedPow ln2 F fuel e = .ok none) := by
  classical
  by_cases hx : x = 0
  · subst hx
    constructor
    · intro h1
      left
      refine ⟨rfl, ?_⟩
      by_contra hc
      obtain ⟨c, h2, -⟩ := (C47_base_zero ln2 F fuel a h e).1 (by linarith)
      rw [h1] at h2
      cases h2
    · rintro (⟨-, h1⟩ | ⟨h1, -⟩)
      · rcases h1.lt_or_eq with h1 | h1
        · exact (C47_base_zero ln2 F fuel a h e).2 h1
        · rw [h1]; exact (C47_exponent_zero ln2 F fuel a 0 h).2 rfl
      · exact absurd h1 (lt_irrefl _)
  have hiz : a.isZero = false := by
    rw [Bool.eq_false_iff]; exact fun e => hx (h.isZero_iff.mp e)
  have hden0 : e.den ≠ 1 → e ≠ 0 ∧ e ≠ 1 ∧ e ≠ -1 := by
    intro hd
    refine ⟨?_, ?_, ?_⟩ <;> rintro rfl <;> exact hd rfl
  constructor
  · intro h1
    right
    unfold checkedPow at h1
    by_cases h0 : e = 0
    · rw [if_pos h0, hiz] at h1; cases h1
    rw [if_neg h0] at h1
    by_cases he1 : e = 1
    · rw [if_pos he1] at h1; cases h1
    rw [if_neg he1] at h1
    by_cases he2 : e = -1
    · rw [if_pos he2] at h1
      exfalso
      rcases h.rat_or_irr with ⟨q, hq, -⟩ | ⟨-, hirr⟩
      · subst hq
        obtain ⟨b, h2, -⟩ := (C40_recip_rational a q h fuel).2 (by exact_mod_cast hx)
        rw [h1] at h2; cases h2
      · obtain ⟨N, hN⟩ := h.checkedRecip_irr hirr
        obtain ⟨b, h2, -⟩ := hN (max N fuel) (le_max_left _ _)
        rw [checkedRecip_mono a fuel _ h1 _ (le_max_right _ _)] at h2
        cases h2
    rw [if_neg he2, hiz, if_neg (by simp)] at h1
    by_cases h3 : a.isOne = true
    · rw [if_pos h3] at h1; cases h1
    rw [if_neg h3] at h1
    by_cases h4 : a.isNegativeOne = true
    · rw [if_pos h4] at h1
      rw [h.isNegativeOne_iff.mp h4]
      refine ⟨by norm_num, fun hd => ?_⟩
      rw [if_pos hd] at h1
      split at h1 <;> cases h1
    rw [if_neg h4] at h1
    by_contra hc
    by_cases h5 : e.den ≠ 1 ∨ Irrational x
    · rw [powTail_general ln2 F fuel a x h e hc h5] at h1
      exact ok_some_ne_none _ h1
    · push Not at h5
      obtain ⟨hd, h6⟩ := h5
      obtain ⟨q, rfl⟩ := not_not.mp h6
      unfold powTail at h1
      rw [h.isNegative_eq] at h1
      simp only [bind, Except.bind] at h1
      rw [hd, h.toRational_rat] at h1
      simp only [ne_eq, not_true_eq_false, decide_false, Bool.and_false, Bool.false_eq_true, if_false,
        if_true] at h1
      cases h1
  · rintro (⟨h1, -⟩ | ⟨h1, hd⟩)
    · exact absurd h1 hx
    · obtain ⟨e0, e1, e2⟩ := hden0 hd
      unfold checkedPow
      rw [if_neg e0, if_neg e1, if_neg e2, hiz, if_neg (by simp), if_neg (by
        rw [h.isOne_iff]; intro hc; rw [hc] at h1; linarith)]
      by_cases h4 : a.isNegativeOne = true
      · rw [if_pos h4, if_neg hd]; rfl
      · rw [if_neg h4, powTail_none ln2 F fuel a x h e h1 hd]

/-- C47 is false as claimed: there is no cube root of `-8`, although `(-2)^3 = -8`, and zero has no
power with the exponent zero. -/
theorem C47_none_false (ln2 : ℕ → ℕ → DFI) (F : FactorCall) (fuel : ℕ) :
    (ofInt (-8)).checkedPow ln2 F fuel (1 / 3) = .ok none ∧ (-2 : ℝ) ^ 3 = ((-8 : ℤ) : ℝ) ∧
    (ofInt (-8)).Represents ((-8 : ℤ) : ℝ) ∧
    zero.checkedPow ln2 F fuel 0 = .ok none ∧ zero.Represents 0 := by
  refine ⟨?_, by norm_num, ofInt_represents _, ?_, zero_represents⟩
  · refine (C47_none_iff_partial ln2 F fuel _ _ (ofInt_represents (-8)) (1 / 3)).2 (Or.inr ⟨?_, ?_⟩)
    · norm_num
    · norm_num
  · exact (C47_exponent_zero ln2 F fuel _ _ zero_represents).2 rfl

/-! ## The general case -/

theorem powGeneral_eq (ln2 : ℕ → ℕ → DFI) (F : FactorCall) (fuel : ℕ) (a b : RealAlg) (y : ℝ) (e : ℚ)
    (he : e ≠ 0) (hb : powBase fuel a e = .ok b) (hy : b.Represents y) (neg : Bool) :
    ∃ R s, powResultant b.poly e.num.natAbs e.den = some R ∧ R.toPoly ≠ 0 ∧
      b.intervalShrinker = .ok s ∧ s.Valid b.poly y ∧
      (∀ z : ℂ, aeval z R.toPoly = 0 ↔ ∃ w : ℂ, aeval w b.poly.toPoly = 0 ∧
        z ^ e.den = w ^ e.num.natAbs) ∧
      a.powGeneral ln2 F fuel (decide (e < 0)) e.num.natAbs e.den neg =
        selectRoot (powGetInterval ln2 |e| neg) powShrink F fuel (s, 0) R := by
  have hn : 0 < e.num.natAbs := by
    have : e.num ≠ 0 := by simpa using he
    omega
  obtain ⟨R, hR⟩ := powResultant_exists b.poly e.num.natAbs e.den hn hy.ne_zero
  obtain ⟨s, hs, hv, -⟩ := hy.intervalShrinker
  refine ⟨R, s, hR, powResultant_ne_zero _ R _ _ hn e.pos hy.ne_zero hR, hs, hv,
    powResultant_root _ R _ _ hn hy.ne_zero hR, ?_⟩
  have habs : ((e.num.natAbs : ℕ) : ℚ) / e.den = |e| := by
    rw [← Int.cast_natCast, Int.natCast_natAbs, Int.cast_abs]
    nth_rw 3 [← Rat.num_div_den e]
    rw [abs_div, Nat.abs_cast]
  unfold powGeneral
  unfold powBase at hb
  by_cases h0 : e < 0
  · rw [if_pos h0] at hb
    simp only [h0, decide_true, if_true]
    rw [hb]
    simp only [bind, Except.bind]
    rw [hR, habs]
    simp only [orPanic]
    rw [hs]
  · rw [if_neg h0] at hb
    simp only [h0, decide_false, Bool.false_eq_true, if_false]
    rw [hb]
    simp only [bind, Except.bind]
    rw [hR, habs]
    simp only [orPanic]
    rw [hs]

/-- powers that do not get to the general case -/
theorem checkedPow_cases (ln2 : ℕ → ℕ → DFI) (F : FactorCall) (fuel : ℕ) (a : RealAlg) (x : ℝ)
    (h : a.Represents x) (hx : x ≠ 0) (e : ℚ) (hxe : 0 < x ∨ e.den = 1) [Decidable (x < 0)] :
    (∃ c, a.checkedPow ln2 F fuel e = .ok (some c) ∧ c.Represents (powValue x e)) ∨
    (e = -1 ∧ Irrational x ∧ a.checkedPow ln2 F fuel e = a.checkedRecip fuel) ∨
    (e ≠ 0 ∧ (e.den ≠ 1 ∨ Irrational x) ∧ a.checkedPow ln2 F fuel e =
      (a.powGeneral ln2 F fuel (decide (e < 0)) e.num.natAbs e.den
        (decide (x < 0) && decide (e.num % 2 ≠ 0)) >>= fun r => pure (some r))) := by
  have hiz : a.isZero = false := by
    rw [Bool.eq_false_iff]; exact fun e => hx (h.isZero_iff.mp e)
  by_cases hr : e.den ≠ 1 ∨ Irrational x
  · by_cases h0 : e = 0
    · left
      obtain ⟨c, h1, h2⟩ := (C47_exponent_zero ln2 F fuel a x h).1 hx
      refine ⟨c, by rw [h0]; exact h1, ?_⟩
      rw [h0, show (0 : ℚ) = ((0 : ℤ) : ℚ) by simp, powValue_int, zpow_zero]
      exact h2
    by_cases h1 : e = 1
    · left
      refine ⟨a, by rw [h1]; exact C47_exponent_one ln2 F fuel a, ?_⟩
      rw [h1, show (1 : ℚ) = ((1 : ℤ) : ℚ) by simp, powValue_int, zpow_one]
      exact h
    by_cases h2 : e = -1
    · right; left
      refine ⟨h2, hr.resolve_left (by rw [h2]; simp), ?_⟩
      unfold checkedPow
      rw [if_neg h0, if_neg h1, if_pos h2]
    by_cases h3 : x = 1
    · left
      refine ⟨one, ?_, ?_⟩
      · unfold checkedPow
        rw [if_neg h0, if_neg h1, if_neg h2, hiz, if_neg (by simp), if_pos (h.isOne_iff.mpr h3)]
        rfl
      · have : powValue x e = 1 := by unfold powValue; rw [h3]; simp
        rw [this]
        exact one_represents
    have h4 : x ≠ -1 := by
      intro h4
      rcases hr with hr | hr
      · rcases hxe with hxe | hxe
        · linarith
        · exact hr hxe
      · exact hr ⟨-1, by rw [h4]; simp⟩
    right; right
    refine ⟨h0, hr, ?_⟩
    unfold checkedPow
    rw [if_neg h0, if_neg h1, if_neg h2, hiz, if_neg (by simp), if_neg (by rw [h.isOne_iff]; exact h3),
      if_neg (by rw [h.isNegativeOne_iff]; exact h4)]
    refine powTail_general ln2 F fuel a x h e ?_ hr
    rintro ⟨h5, h6⟩
    rcases hxe with hxe | hxe
    · linarith
    · exact h6 hxe
  · left
    push Not at hr
    obtain ⟨q, rfl⟩ := not_not.mp hr.2
    obtain ⟨k, rfl⟩ : ∃ k : ℤ, (k : ℚ) = e := ⟨e.num, Rat.coe_int_num_of_den_eq_one hr.1⟩
    rw [powValue_int]
    exact C47_integer_power_rational ln2 F fuel a q h (by exact_mod_cast hx) k

theorem powBase_rat (fuel : ℕ) (a : RealAlg) (q : ℚ) (h : a.Represents q) (hq : q ≠ 0) (e : ℚ) :
    ∃ b, powBase fuel a e = .ok b ∧ b.Represents (if e < 0 then q⁻¹ else q : ℚ) := by
  unfold powBase
  by_cases h0 : e < 0
  · rw [if_pos h0, if_pos h0]
    refine ⟨ofRat q⁻¹, ?_, ofRat_represents _⟩
    unfold RealAlg.recip
    rw [h.checkedRecip_rat, if_neg hq]
    rfl
  · rw [if_neg h0, if_neg h0]
    exact ⟨a, rfl, h⟩

theorem powValue_abs (x : ℝ) (e : ℚ) (hxe : 0 < x ∨ e.den = 1) :
    powValue x e = powValue (if e < 0 then x⁻¹ else x) |e| := by
  by_cases h0 : e < 0
  · rw [if_pos h0, abs_of_neg h0, ← powValue_neg x (-e) (by rwa [Rat.neg_den]), neg_neg]
  · rw [if_neg h0, abs_of_nonneg (by linarith)]

theorem abs_num_den (e : ℚ) : |e|.den = e.den ∧ |e|.num.natAbs = e.num.natAbs := by
  rcases abs_choice e with h | h
  · rw [h]; exact ⟨rfl, rfl⟩
  · rw [h, Rat.neg_den, Rat.neg_num, Int.natAbs_neg]; exact ⟨rfl, rfl⟩

theorem linear_root {b : RealAlg} {q : ℚ} (h : b.Represents q) (w : ℂ) (hw : aeval w b.poly.toPoly = 0) :
    w = q := by
  rcases h.rat_or_irr with ⟨q', h1, h2, h3, h4⟩ | ⟨-, h2⟩
  · obtain rfl : q' = q := by exact_mod_cast h1
    rw [eq_X_add_C_of_natDegree_le_one h2.le, h3, h4] at hw
    simp only [map_add, map_mul, aeval_C, aeval_X, algebraMap_int_eq, Int.coe_castRingHom] at hw
    push_cast at hw
    have h5 : (q'.den : ℂ) ≠ 0 := by exact_mod_cast q'.den_nz
    have h6 : (q' : ℂ) = q'.num / q'.den := by exact_mod_cast (Rat.num_div_den q').symm
    rw [h6, eq_div_iff h5]
    linear_combination hw
  · exact absurd ⟨q, rfl⟩ h2

/-- the resultant of a power of a positive rational number has one root that is not negative -/
theorem powRoot_unique {b : RealAlg} {q : ℚ} (h : b.Represents q) (hq : 0 < q) (e : ℚ) (he : e ≠ 0)
    {R : Poly ℤ}
    (hR : ∀ z : ℂ, aeval z R.toPoly = 0 ↔ ∃ w : ℂ, aeval w b.poly.toPoly = 0 ∧
      z ^ e.den = w ^ e.num.natAbs) :
    (∀ y : ℝ, 0 ≤ y → aeval y R.toPoly = 0 → y = powValue q |e|) ∧
    (aeval (powValue q |e|) R.toPoly = 0) := by
  have hqr : (0 : ℝ) < q := by exact_mod_cast hq
  have hv := powValue_pow q |e| (abs_pos.mpr he) (Or.inl hqr)
  rw [(abs_num_den e).1, (abs_num_den e).2] at hv
  have hreal : ∀ y : ℝ, aeval y R.toPoly = 0 ↔ y ^ e.den = (q : ℝ) ^ e.num.natAbs := by
    intro y
    have h1 : aeval (y : ℂ) R.toPoly = ((aeval y R.toPoly : ℝ) : ℂ) := by
      rw [show (y : ℂ) = algebraMap ℝ ℂ y by simp, aeval_algebraMap_apply]; rfl
    rw [← Complex.ofReal_eq_zero, ← h1, hR]
    constructor
    · rintro ⟨w, hw, h2⟩
      rw [linear_root h w hw] at h2
      exact_mod_cast h2
    · intro h2
      refine ⟨q, ?_, by exact_mod_cast h2⟩
      have := h.root
      rw [show (q : ℂ) = algebraMap ℝ ℂ (q : ℝ) by simp, aeval_algebraMap_apply, this]
      simp
  refine ⟨fun y hy h0 => ?_, (hreal _).mpr hv⟩
  rw [hreal, ← hv] at h0
  exact (pow_left_inj₀ hy (powValue_pos _ _ hqr).le e.den_nz).mp h0

/-- C47: whatever `checked_pow` returns for a positive rational base and any rational exponent represents
the power, for any state of the cache of `log 2` and any fuel; no assumption on the intervals that
`log` and `exp` compute is needed. -/
theorem C47_positive_rational_sound (ln2 : ℕ → ℕ → DFI) (hln2 : ∀ t, IsLn2 (ln2 t)) (F : FactorCall) (fuel : ℕ)
    (a : RealAlg) (q : ℚ) (h : a.Represents q) (hq : 0 < q) (e : ℚ)
    (hF : ∀ b R, powBase fuel a e = .ok b → powResultant b.poly e.num.natAbs e.den = some R →
      FactorsRight F R)
    (c : RealAlg) (hc : a.checkedPow ln2 F fuel e = .ok (some c)) : c.Represents (powValue q e) := by
  classical
  have hqr : (0 : ℝ) < q := by exact_mod_cast hq
  rcases checkedPow_cases ln2 F fuel a q h hqr.ne' e (Or.inl hqr) with
    ⟨c', h1, h2⟩ | ⟨-, h1, -⟩ | ⟨h0, -, h2⟩
  · rw [hc] at h1; cases h1; exact h2
  · exact absurd ⟨q, rfl⟩ h1
  · obtain ⟨b, hb, hbr⟩ := powBase_rat fuel a q h hq.ne' e
    have hpos : 0 < (if e < 0 then q⁻¹ else q : ℚ) := by split <;> positivity
    rw [powValue_abs _ _ (Or.inl hqr)]
    have hcast : (if e < 0 then (q : ℝ)⁻¹ else q) = ((if e < 0 then q⁻¹ else q : ℚ) : ℝ) := by
      split <;> push_cast <;> rfl
    rw [hcast]
    generalize (if e < 0 then q⁻¹ else q : ℚ) = p at hbr hpos
    obtain ⟨R, s, r1, r2, r3, r4, r5, r6⟩ := powGeneral_eq ln2 F fuel a b p e h0 hb hbr
      (decide ((q : ℝ) < 0) && decide (e.num % 2 ≠ 0))
    rw [show decide ((q : ℝ) < 0) = false by simp [hq.le], Bool.false_and] at h2 r6
    rw [h2, r6] at hc
    obtain ⟨r, hr1, hr2⟩ := hF b R hb r1
    obtain ⟨hun, -⟩ := powRoot_unique hbr hpos e h0 r5
    cases hsel : selectRoot (powGetInterval ln2 |e| false) powShrink F fuel (s, 0) R with
    | error x => rw [hsel] at hc; cases hc
    | ok c' =>
      rw [hsel] at hc
      cases hc
      have hin : ∀ i, powInterval (ln2 0) |e| false s = some i → 0 ≤ i.lo ∧ i.lo ≤ i.hi := fun i hi =>
        powInterval_nonneg (ln2 0) (hln2 0) |e| s p r4.rep.mem i hi
      refine selectRoot_sound F R r hr1 hr2 (s, 0) (fun i hi => (hin i hi).2) (fun i hi y hy hy0 => ?_) fuel c
        hsel
      refine hun y ?_ hy0
      have h3 : (0 : ℝ) ≤ i.lo := by exact_mod_cast (hin i hi).1
      exact le_trans (by positivity) hy.1

/-- C47, in part: roots and powers of positive rational numbers. The first turn finds the power if the
first interval that `log` and `exp` compute holds it. Missing: that `exp` returns, and that its result
holds the power, which are false in general (`C08_panics_false`). -/
theorem C47_positive_rational_partial (ln2 : ℕ → ℕ → DFI) (hln2 : ∀ t, IsLn2 (ln2 t)) (F : FactorCall) (fuel : ℕ)
    (a : RealAlg) (q : ℚ) (h : a.Represents q) (hq : 0 < q) (e : ℚ)
    (hF : ∀ b R, powBase (fuel + 1) a e = .ok b → powResultant b.poly e.num.natAbs e.den = some R →
      FactorsRight F R)
    (hi : ∀ b s, powBase (fuel + 1) a e = .ok b → b.intervalShrinker = .ok s →
      ∃ i, powInterval (ln2 0) |e| false s = some i ∧ i.Contains (powValue q e)) :
    ∃ c, a.checkedPow ln2 F (fuel + 1) e = .ok (some c) ∧ c.Represents (powValue q e) := by
  classical
  have hqr : (0 : ℝ) < q := by exact_mod_cast hq
  rcases checkedPow_cases ln2 F (fuel + 1) a q h hqr.ne' e (Or.inl hqr) with
    h1 | ⟨-, h1, -⟩ | ⟨h0, -, h2⟩
  · exact h1
  · exact absurd ⟨q, rfl⟩ h1
  · obtain ⟨b, hb, hbr⟩ := powBase_rat (fuel + 1) a q h hq.ne' e
    have hpos : 0 < (if e < 0 then q⁻¹ else q : ℚ) := by split <;> positivity
    rw [powValue_abs _ _ (Or.inl hqr)] at hi ⊢
    have hcast : (if e < 0 then (q : ℝ)⁻¹ else q) = ((if e < 0 then q⁻¹ else q : ℚ) : ℝ) := by
      split <;> push_cast <;> rfl
    rw [hcast] at hi ⊢
    generalize (if e < 0 then q⁻¹ else q : ℚ) = p at hbr hpos hi
    obtain ⟨R, s, r1, r2, r3, r4, r5, r6⟩ := powGeneral_eq ln2 F (fuel + 1) a b p e h0 hb hbr
      (decide ((q : ℝ) < 0) && decide (e.num % 2 ≠ 0))
    rw [show decide ((q : ℝ) < 0) = false by simp [hq.le], Bool.false_and] at h2 r6
    rw [h2, r6]
    obtain ⟨r, hr1, hr2⟩ := hF b R hb r1
    obtain ⟨hun, hv⟩ := powRoot_unique hbr hpos e h0 r5
    obtain ⟨i, hi1, hi2⟩ := hi b s hb r3
    obtain ⟨c, h3, h4⟩ := selectRoot_single (getInterval := powGetInterval ln2 |e| false)
      (shrinkInterval := powShrink) F R r2 r hr1
      hr2 hv (s, 0) hi1 hi2 (fun y hy hy0 => by
        refine hun y ?_ hy0
        have h3 : (0 : ℝ) ≤ i.lo := by
          exact_mod_cast (powInterval_nonneg (ln2 0) (hln2 0) |e| s p r4.rep.mem i hi1).1
        exact le_trans (by positivity) hy.1) fuel
    rw [h3]
    exact ⟨c, rfl, h4⟩

/-- C47, in part: any base. If every interval that is computed on the way holds the power, what is
returned represents the power: unlike addition and multiplication, powers do not suffer from the ends of the
intervals, since a rational power of a conjugate is the power of the number itself. Missing: that `exp`
returns and its result holds the power (`C08_panics_false`); that the reciprocal taken for a negative exponent
represents the reciprocal (`C40_recip_false`). -/
theorem C47_power_partial (ln2 : ℕ → ℕ → DFI) (hln2 : ∀ t, IsLn2 (ln2 t)) (F : FactorCall) (fuel : ℕ)
    (a b : RealAlg) (x : ℝ) (h : a.Represents x) (hx : x ≠ 0) (e : ℚ) (hxe : 0 < x ∨ e.den = 1)
    [Decidable (x < 0)] (hb : powBase fuel a e = .ok b) (hbr : b.Represents (if e < 0 then x⁻¹ else x))
    (hF : ∀ R, powResultant b.poly e.num.natAbs e.den = some R → FactorsRight F R)
    (hi : ∀ s k t i, b.intervalShrinker = .ok s → k < fuel → Shrinker.shrinkTimes k s = some t →
      powInterval (ln2 k) |e| (decide (x < 0) && decide (e.num % 2 ≠ 0)) t = some i →
      i.Contains (powValue x e))
    (c : RealAlg) (hc : a.checkedPow ln2 F fuel e = .ok (some c)) : c.Represents (powValue x e) := by
  rcases checkedPow_cases ln2 F fuel a x h hx e hxe with
    ⟨c', h1, h2⟩ | ⟨h1, -, h2⟩ | ⟨h0, -, h2⟩
  · rw [hc] at h1; cases h1; exact h2
  · have h3 : e < 0 := by rw [h1]; norm_num
    unfold powBase at hb
    rw [if_pos h3] at hb hbr
    unfold RealAlg.recip at hb
    rw [← h2, hc] at hb
    cases hb
    rw [h1, show (-1 : ℚ) = ((-1 : ℤ) : ℚ) by simp, powValue_int, zpow_neg_one]
    exact hbr
  · obtain ⟨R, s, r1, r2, r3, r4, r5, r6⟩ := powGeneral_eq ln2 F fuel a b _ e h0 hb hbr
      (decide (x < 0) && decide (e.num % 2 ≠ 0))
    rw [h2, r6] at hc
    obtain ⟨r, hr1, hr2⟩ := hF R r1
    have hv := powValue_pow (if e < 0 then x⁻¹ else x) |e| (abs_pos.mpr h0) (by
      rw [(abs_num_den e).1]
      refine hxe.imp_left fun hp => ?_
      split
      · exact inv_pos.mpr hp
      · exact hp)
    rw [(abs_num_den e).1, (abs_num_den e).2, ← powValue_abs x e hxe] at hv
    have hreal : ∀ y : ℝ, aeval (y : ℂ) R.toPoly = ((aeval y R.toPoly : ℝ) : ℂ) := by
      intro y
      rw [show (y : ℂ) = algebraMap ℝ ℂ y by simp, aeval_algebraMap_apply]; rfl
    have hroot : aeval (powValue x e) R.toPoly = 0 := by
      rw [← Complex.ofReal_eq_zero, ← hreal, r5]
      refine ⟨((if e < 0 then x⁻¹ else x : ℝ) : ℂ), ?_, by exact_mod_cast hv⟩
      rw [show (((if e < 0 then x⁻¹ else x : ℝ) : ℂ)) = algebraMap ℝ ℂ (if e < 0 then x⁻¹ else x) by simp,
        aeval_algebraMap_apply, hbr.root]
      simp
    cases hsel : selectRoot (powGetInterval ln2 |e| (decide (x < 0) && decide (e.num % 2 ≠ 0)))
        powShrink F fuel (s, 0) R with
    | error x => rw [hsel] at hc; cases hc
    | ok c' =>
      rw [hsel] at hc
      cases hc
      rcases selectRoot_returns (Inv := fun k t => t.2 = k ∧ Shrinker.shrinkTimes k s = some t.1 ∧
          t.1.Valid b.poly (if e < 0 then x⁻¹ else x)) fuel
        (fun k t i hk ht hti => hi s k t.1 i r3 hk ht.2.1 (by rw [← ht.1]; exact hti))
        (fun k t t' ht htt => by
          obtain ⟨t'', _, h3, h4⟩ := ht.2.2.shrink
          unfold powShrink at htt
          rw [h3] at htt
          cases htt
          refine ⟨by rw [ht.1], ?_, h4.valid⟩
          simp only [Shrinker.shrinkTimes, ht.2.1, Option.bind_some, h3, Option.map_some]) F R r2 r hr1 hr2 hroot
          (s, 0) ⟨rfl, rfl, r4⟩ c hsel with
        h3 | ⟨q, q1, q2, q3, k, t, i, ⟨-, -, q4⟩, q5, q6⟩
      · exact h3
      · -- a rational power of a conjugate is the power of the number
        exfalso
        have h4 := hreal q
        rw [q3] at h4
        obtain ⟨w, w1, w2⟩ := (r5 q).mp (by simpa using h4)
        have h5 := root_transfer hbr.irreducible hbr.natDegree_pos w1 ((aeval_realCast _ _).mpr hbr.root)
          (X ^ e.num.natAbs - C (q ^ e.den)) (by simp [w2])
        simp only [map_sub, map_pow, aeval_X, aeval_C, eq_ratCast] at h5
        have h6 : ((if e < 0 then x⁻¹ else x : ℝ)) ^ e.num.natAbs = (q : ℝ) ^ e.den := by
          rw [sub_eq_zero] at h5
          exact_mod_cast h5
        rw [← hv] at h6
        rcases hxe with hxe | hxe
        · have hp : 0 < powValue x e := powValue_pos _ _ hxe
          have hq0 : 0 ≤ q := by
            rw [show decide (x < 0) = false by simp [hxe.le], Bool.false_and] at q5
            obtain ⟨i1, i2⟩ := powInterval_nonneg (ln2 t.2) (hln2 t.2) |e| t.1 _ q4.rep.mem i q5
            rcases q6 with rfl | rfl
            · have : (0 : ℚ) ≤ i.lo := by exact_mod_cast i1
              unfold DFI.lowerBound shl; push_cast; positivity
            · have : (0 : ℚ) ≤ i.hi := by exact_mod_cast i1.trans i2
              unfold DFI.upperBound shl; push_cast; positivity
          exact q2 ((pow_left_inj₀ hp.le (by exact_mod_cast hq0) e.den_nz).mp h6).symm
        · rw [hxe, pow_one, pow_one] at h6
          exact q2 h6.symm

/-! ## The theorems apply: `2^(1/2)` and `√2^3` -/

example : ∃ c, (ofInt 2).checkedPow (fun _ => ln2Direct) trivialFactor 1 (1 / 2) = .ok (some c) ∧
    c.Represents (powValue (2 : ℚ) (1 / 2)) := by
  have hb : powBase 1 (ofInt 2) (1 / 2) = .ok (ofInt 2) := by
    unfold powBase; rw [if_neg (by norm_num)]
  have hv : powValue (2 : ℚ) (1 / 2) = √2 := by
    unfold powValue
    rw [if_neg (by norm_num), Real.sqrt_eq_rpow]
    norm_num
  have hd : (1 / 2 : ℚ).den = 2 := by norm_num
  have hn : (1 / 2 : ℚ).num.natAbs = 1 := by norm_num
  refine C47_positive_rational_partial (fun _ => ln2Direct) (fun _ => C06_ln2_direct) trivialFactor 0 _ 2
    (by have := ofInt_represents 2; simpa using this) (by norm_num) (1 / 2) ?_ ?_
  · intro b R h1 h2
    rw [hb] at h1
    cases h1
    rw [hd, hn] at h2
    have h3 : powResultant (ofInt 2).poly 1 2 = some (.ofCoeffs [-2, 0, 1]) := by decide +kernel
    rw [h3] at h2
    cases h2
    refine trivialFactor_right 0 (-2) fun n hn => ?_
    have h2 : n < 2 := by nlinarith
    have h3 : -2 < n := by nlinarith
    interval_cases n <;> omega
  · intro b s h1 h2
    rw [hb] at h1
    cases h1
    refine ⟨⟨1, 3, 0⟩, ?_, ?_⟩
    · obtain ⟨s', h3, -, h5⟩ := (ofInt_represents 2).intervalShrinker
      rw [h2] at h3
      cases h3
      unfold powInterval
      rw [h5, abs_of_pos (by norm_num)]
      decide +kernel
    · rw [hv]
      have hs : √2 ^ 2 = (2 : ℝ) := Real.sq_sqrt (by norm_num)
      have h0 : 0 ≤ √2 := Real.sqrt_nonneg 2
      unfold DFI.Contains
      constructor <;> norm_num <;> nlinarith

example : ∃ c, sqrtTwo.checkedPow (fun _ => ln2Direct) trivialFactor 1 3 = .ok (some c) ∧
    c.Represents (powValue (√2) 3) := by
  classical
  have hs : √2 ^ 2 = (2 : ℝ) := Real.sq_sqrt (by norm_num)
  have h0 : 0 < √2 := Real.sqrt_pos.mpr (by norm_num)
  have hn3 : (3 : ℚ).num.natAbs = 3 := by norm_num
  have hd3 : (3 : ℚ).den = 1 := by norm_num
  have hc : sqrtTwo.checkedPow (fun _ => ln2Direct) trivialFactor 1 3 =
      .ok (some ⟨.ofCoeffs [-8, 0, 1], ⟨0, 26, 0⟩⟩) := by decide +kernel
  refine ⟨_, hc, C47_power_partial (fun _ => ln2Direct) (fun _ => C06_ln2_direct) trivialFactor 1 sqrtTwo sqrtTwo (√2) sqrtTwo_represents
    h0.ne' 3 (Or.inl h0) ?_ ?_ ?_ ?_ _ hc⟩
  · unfold powBase; rw [if_neg (by norm_num)]
  · rw [if_neg (by norm_num)]; exact sqrtTwo_represents
  · intro R hR
    rw [hn3, hd3] at hR
    have h3 : powResultant sqrtTwo.poly 3 1 = some (.ofCoeffs [-8, 0, 1]) := by decide +kernel
    rw [h3] at hR
    cases hR
    refine trivialFactor_right 0 (-8) fun n hn => ?_
    have h2 : n < 3 := by nlinarith
    have h3 : -3 < n := by nlinarith
    interval_cases n <;> omega
  · intro s k t i h1 h2 h3 h4
    obtain rfl : k = 0 := by omega
    simp only [Shrinker.shrinkTimes, Option.some.injEq] at h3
    subst h3
    obtain ⟨s', e1, -, e2⟩ := sqrtTwo_represents.intervalShrinker
    rw [h1] at e1
    cases e1
    have h5 : powInterval ln2Direct 3 false s = some ⟨0, 26, 0⟩ := by
      unfold powInterval
      rw [e2]
      decide +kernel
    rw [show decide (√2 < 0) = false by simp [h0.le], Bool.false_and, abs_of_pos (by norm_num), h5] at h4
    cases h4
    rw [show (3 : ℚ) = ((3 : ℤ) : ℚ) by simp, powValue_int]
    have : √2 ^ (3 : ℤ) = 2 * √2 := by
      rw [show (3 : ℤ) = ((3 : ℕ) : ℤ) by rfl, zpow_natCast, pow_succ, hs]
    rw [this]
    unfold DFI.Contains
    constructor <;> norm_num
    nlinarith

end RealAlg

end Algebraics
