import Verif.Spec.History
import Verif.Props.AlgNumSound

/-!
Property C71: programs of any length over algebraic numbers. As long as no call is one of the exceptional
cases, every variable holds exactly the number it should hold, after any number of operations, in any order,
with any sharing and reuse of variables.
-/

namespace Algebraics

open Polynomial RealAlg

variable {a b c : RealAlg} {x y : ℝ}

namespace RealAlg

theorem Represents.coprime_iff (ha : a.Represents x) (hb : b.Represents y) :
    CoprimeDegrees x y ↔ a.poly.toPoly.natDegree.Coprime b.poly.toPoly.natDegree := by
  unfold CoprimeDegrees
  rw [ha.minpoly_degree, hb.minpoly_degree]

theorem add_clean (choose : ℕ → List ℕ → ℕ) (hc : Poly.HeapOrder choose) (rng : ℕ → ℕ) (ffuel fuel : ℕ)
    (ha : a.Represents x) (hb : b.Represents y) (hs : CleanSum x y)
    (h : a.add (factorCall choose rng ffuel) fuel b = .ok c) : c.Represents (x + y) := by
  rcases hs with hs | ⟨h1, h2, h3⟩
  · exact C44_add_sound_partial choose hc rng ffuel fuel a b c x y ha hb ((ha.coprime_iff hb).mp hs) h
  · exact C44_add_sound_integers_partial choose hc rng ffuel fuel a b c x y ha hb h1 h2 h3 h

theorem sub_clean (choose : ℕ → List ℕ → ℕ) (hc : Poly.HeapOrder choose) (rng : ℕ → ℕ) (ffuel fuel : ℕ)
    (ha : a.Represents x) (hb : b.Represents y) (hs : CleanSum x (-y))
    (h : a.sub (factorCall choose rng ffuel) fuel b = .ok c) : c.Represents (x - y) := by
  obtain ⟨n, h1, h2, -⟩ := hb.neg
  unfold RealAlg.sub at h
  rw [h1] at h
  rw [sub_eq_add_neg]
  exact add_clean choose hc rng ffuel fuel ha h2 hs h

theorem mul_clean (choose : ℕ → List ℕ → ℕ) (hc : Poly.HeapOrder choose) (rng : ℕ → ℕ) (ffuel fuel : ℕ)
    (ha : a.Represents x) (hb : b.Represents y) (hs : CleanProduct x y)
    (h : a.mul (factorCall choose rng ffuel) fuel b = .ok c) : c.Represents (x * y) := by
  rcases hs with hs | ⟨h1, h2, h3⟩
  · exact C45_mul_sound_partial choose hc rng ffuel fuel a b c x y ha hb ((ha.coprime_iff hb).mp hs) h
  · exact C45_mul_sound_integers_partial choose hc rng ffuel fuel a b c x y ha hb h1 h2 h3 h

theorem recip_clean (fuel : ℕ) (ha : a.Represents x) (hs : CleanRecip x)
    (h : a.checkedRecip fuel = .ok (some c)) : c.Represents x⁻¹ :=
  (C40_recip_sound_partial fuel a c x ha (fun hi z hz => hs hi z ((ha.conj_real_iff z).mp hz)) h).2

theorem div_clean (choose : ℕ → List ℕ → ℕ) (hc : Poly.HeapOrder choose) (rng : ℕ → ℕ) (ffuel fuel : ℕ)
    (ha : a.Represents x) (hb : b.Represents y) (hr : CleanRecip y) (hs : CleanProduct x y⁻¹)
    (h : a.div (factorCall choose rng ffuel) fuel b = .ok c) : c.Represents (x / y) := by
  unfold RealAlg.div checkedExactDiv at h
  cases h1 : b.checkedRecip fuel with
  | error e => rw [h1] at h; simp [bind, Except.bind] at h
  | ok r =>
    rw [h1] at h
    cases r with
    | none => simp [bind, Except.bind, pure, Except.pure, orPanic] at h
    | some r =>
      cases h3 : a.mul (factorCall choose rng ffuel) fuel r with
      | error e => simp [bind, Except.bind, h3] at h
      | ok m =>
        simp only [bind, Except.bind, h3, pure, Except.pure, orPanic, Except.ok.injEq] at h
        rw [h] at h3
        rw [div_eq_mul_inv]
        exact mul_clean choose hc rng ffuel fuel ha (recip_clean fuel hb hr h1) hs h3

theorem rem_clean (choose : ℕ → List ℕ → ℕ) (hc : Poly.HeapOrder choose) (rng : ℕ → ℕ) (ffuel fuel : ℕ)
    (ha : a.Represents x) (hb : b.Represents y) (hr : CleanRecip y) (hs : CleanProduct x y⁻¹)
    (hd : CleanSum x (-(truncate (x / y) * y)))
    (h : a.rem (factorCall choose rng ffuel) fuel b = .ok c) :
    c.Represents (x - truncate (x / y) * y) := by
  unfold RealAlg.rem at h
  cases h1 : a.div (factorCall choose rng ffuel) fuel b with
  | error e => rw [h1] at h; simp [bind, Except.bind] at h
  | ok q =>
    have hq := div_clean choose hc rng ffuel fuel ha hb hr hs h1
    rw [h1] at h
    simp only [bind, Except.bind] at h
    cases h2 : q.trunc fuel with
    | error e => rw [h2] at h; simp at h
    | ok t =>
      have ht := (C43_round_sound fuel q t _ hq).2.2 h2
      rw [h2] at h
      simp only at h
      cases h3 : t.mul (factorCall choose rng ffuel) fuel b with
      | error e => rw [h3] at h; simp at h
      | ok m =>
        rw [h3] at h
        simp only at h
        exact sub_clean choose hc rng ffuel fuel ha (C45_mul_sound_partial choose hc rng ffuel fuel t b m _ y
          ht hb (coprime_of_rat ht hb (Or.inl (not_not.mpr ⟨truncate (x / y), by push_cast; rfl⟩))) h3) hd h

theorem absSub_clean (choose : ℕ → List ℕ → ℕ) (hc : Poly.HeapOrder choose) (rng : ℕ → ℕ)
    (ffuel fuel : ℕ) (ha : a.Represents x) (hb : b.Represents y) (hs : CleanSum x (-y))
    (h : a.absSub (factorCall choose rng ffuel) fuel b = .ok c) : c.Represents (max (x - y) 0) := by
  classical
  unfold RealAlg.absSub at h
  cases h1 : a.sub (factorCall choose rng ffuel) fuel b with
  | error e => rw [h1] at h; simp [bind, Except.bind] at h
  | ok d =>
    have h2 := sub_clean choose hc rng ffuel fuel ha hb hs h1
    have h3 := h2.isNegative_eq
    rw [h1] at h
    simp only [bind, Except.bind, h3] at h
    by_cases h0 : x - y < 0
    · simp only [h0, decide_true, if_true, pure, Except.pure, Except.ok.injEq] at h
      rw [← h, max_eq_right h0.le]
      exact zero_represents
    · simp only [h0, decide_false, pure, Except.pure, Bool.false_eq_true, if_false, Except.ok.injEq] at h
      rw [← h, max_eq_left (not_lt.mp h0)]
      exact h2

theorem powValue_zero (e : ℚ) (he : 0 < e) : powValue 0 e = 0 := by
  unfold powValue
  split
  · exact zero_zpow _ (Rat.num_pos.mpr he).ne'
  · exact Real.zero_rpow (by exact_mod_cast he.ne')

theorem pow_clean (ln2 : ℕ → ℕ → DFI) (hln2 : ∀ t, IsLn2 (ln2 t)) (choose : ℕ → List ℕ → ℕ) (hc : Poly.HeapOrder choose)
    (rng : ℕ → ℕ) (ffuel fuel : ℕ) (ha : a.Represents x) (e : ℚ) (hs : CleanPower x e)
    (h : a.checkedPow ln2 (factorCall choose rng ffuel) fuel e = .ok (some c)) :
    c.Represents (powValue x e) := by
  rcases hs with ⟨rfl, h1⟩ | ⟨h1, h2, h3⟩ | ⟨h1, h2, h3, h4⟩ | ⟨h1, h2, h3, h4, h5⟩
  · obtain ⟨c', h2, h3⟩ := (C47_base_zero ln2 (factorCall choose rng ffuel) fuel a ha e).1 h1
    rw [h] at h2
    cases h2
    rwa [powValue_zero e h1]
  · obtain ⟨q, rfl⟩ := not_not.mp h1
    obtain ⟨c', h4, h5⟩ := C47_integer_power_rational ln2 (factorCall choose rng ffuel) fuel a q ha
      (by exact_mod_cast h2) e.num
    rw [show ((e.num : ℤ) : ℚ) = e from Rat.coe_int_num_of_den_eq_one h3, h] at h4
    cases h4
    unfold powValue
    rwa [if_pos h3]
  · exact C47_sound_integers_partial ln2 hln2 choose hc rng ffuel fuel a c x ha h1 h3 e h2 h4 h
  · have hn := Rat.num_pos.mpr h2
    have he : e = (e.num.natAbs : ℚ) := by
      have h6 : (e.num.natAbs : ℤ) = e.num := by omega
      rw [show ((e.num.natAbs : ℕ) : ℚ) = ((e.num.natAbs : ℤ) : ℚ) by simp, h6]
      exact (Rat.coe_int_num_of_den_eq_one h3).symm
    have hk : 0 < e.num.natAbs := by omega
    generalize e.num.natAbs = k at *
    subst he
    rw [show ((k : ℕ) : ℚ) = ((k : ℤ) : ℚ) by simp, powValue_int, zpow_natCast]
    exact C47_sound_integers_negative_partial ln2 hln2 choose hc rng ffuel fuel a c x ha h1 h4 k hk h5 h

theorem call_clean (ln2 : ℕ → ℕ → DFI) (hln2 : ∀ t, IsLn2 (ln2 t)) (choose : ℕ → List ℕ → ℕ) (hc : Poly.HeapOrder choose)
    (rng : ℕ → ℕ) (ffuel fuel : ℕ) (st : ℕ → RealAlg) (v : ℕ → ℝ) (hv : ∀ n, (st n).Represents (v n))
    (i : Instr) (hi : i.Clean v) (h : call ln2 (factorCall choose rng ffuel) fuel st i = .ok c) :
    c.Represents (i.value v) := by
  cases i with
  | const d q =>
    cases h
    exact ofRat_represents q
  | copy d s =>
    cases h
    exact hv s
  | neg d s =>
    obtain ⟨n, h1, h2, -⟩ := (hv s).neg
    rw [show call ln2 (factorCall choose rng ffuel) fuel st (.neg d s) = (st s).neg from rfl, h1] at h
    cases h
    exact h2
  | abs d s =>
    obtain ⟨n, h1, h2⟩ := (hv s).abs
    rw [show call ln2 (factorCall choose rng ffuel) fuel st (.abs d s) = (st s).abs from rfl, h1] at h
    cases h
    exact h2
  | floor d s => exact (C43_round_sound fuel _ c _ (hv s)).1 h
  | ceil d s => exact (C43_round_sound fuel _ c _ (hv s)).2.1 h
  | trunc d s => exact (C43_round_sound fuel _ c _ (hv s)).2.2 h
  | fract d s => exact C43_fract_sound_partial choose hc rng ffuel fuel _ c _ (hv s) hi h
  | recip d s =>
    simp only [call, RealAlg.recip] at h
    cases h1 : (st s).checkedRecip fuel with
    | error e => rw [h1] at h; cases h
    | ok r =>
      rw [h1] at h
      cases r with
      | none => cases h
      | some r =>
        cases h
        exact recip_clean fuel (hv s) hi h1
  | pow d s e =>
    simp only [call] at h
    cases h1 : (st s).checkedPow ln2 (factorCall choose rng ffuel) fuel e with
    | error e => rw [h1] at h; cases h
    | ok r =>
      rw [h1] at h
      cases r with
      | none => cases h
      | some r =>
        cases h
        exact pow_clean ln2 hln2 choose hc rng ffuel fuel (hv s) e hi h1
  | add d s t => exact add_clean choose hc rng ffuel fuel (hv s) (hv t) hi h
  | sub d s t => exact sub_clean choose hc rng ffuel fuel (hv s) (hv t) hi h
  | mul d s t => exact mul_clean choose hc rng ffuel fuel (hv s) (hv t) hi h
  | div d s t => exact div_clean choose hc rng ffuel fuel (hv s) (hv t) hi.1 hi.2 h
  | rem d s t => exact rem_clean choose hc rng ffuel fuel (hv s) (hv t) hi.1 hi.2.1 hi.2.2 h
  | absSub d s t => exact absSub_clean choose hc rng ffuel fuel (hv s) (hv t) hi h

end RealAlg

/-- C71: after any program, however long, all of whose calls are clean, every variable holds exactly the
number that it should hold in mathematics, whatever the random numbers, the orders of the heap and the states of
the cache of `log 2` were in the single calls. -/
theorem C71_program_exact (p : List Instr) (st st' : ℕ → RealAlg) (v : ℕ → ℝ)
    (hv : ∀ n, (st n).Represents (v n)) (hp : CleanProgram p v) (hr : Run p st st') :
    ∀ n, (st' n).Represents (values p v n) := by
  induction p generalizing st v with
  | nil =>
    cases hr
    exact hv
  | cons i p ih =>
    obtain ⟨m, ⟨ln2, choose, rng, ffuel, fuel, c, h1, h2, h3, rfl⟩, h5⟩ := hr
    refine ih _ _ (fun n => ?_) hp.2 h5
    by_cases hn : n = i.target
    · subst hn
      simp only [Function.update_self]
      exact call_clean ln2 h1 choose h2 rng ffuel fuel st v hv i hp.1 h3
    · rw [Function.update_of_ne hn, Function.update_of_ne hn]
      exact hv n

/-- C71: what a user then asks of the variables is answered rightly: tests, signs, conversions, integer parts,
and comparisons of any two variables whose difference is clean. -/
theorem C71_program_observed (p : List Instr) (st st' : ℕ → RealAlg) (v : ℕ → ℝ)
    (hv : ∀ n, (st n).Represents (v n)) (hp : CleanProgram p v) (hr : Run p st st') (n : ℕ) :
    ((st' n).isZero = true ↔ values p v n = 0) ∧ ((st' n).isOne = true ↔ values p v n = 1) ∧
    (∃ o, (st' n).cmpWithZero = .ok o ∧ (o = .lt ↔ values p v n < 0) ∧ (o = .eq ↔ values p v n = 0) ∧
      (o = .gt ↔ 0 < values p v n)) ∧
    (∀ q : ℚ, values p v n = q → (st' n).toRational = .ok (some q)) ∧
    (Irrational (values p v n) → (st' n).toRational = .ok none) ∧
    (∀ fuel k, (st' n).integerFloor fuel = .ok k → k = ⌊values p v n⌋) ∧
    ∀ m, CleanSum (values p v n) (-values p v m) →
      ∀ choose, Poly.HeapOrder choose → ∀ rng ffuel fuel,
        (∀ r, (st' n).eq (factorCall choose rng ffuel) fuel (st' m) = .ok r →
          (r = true ↔ values p v n = values p v m)) ∧
        ∀ o, (st' n).cmp (factorCall choose rng ffuel) fuel (st' m) = .ok o →
          (o = .lt ↔ values p v n < values p v m) ∧ (o = .eq ↔ values p v n = values p v m) ∧
          (o = .gt ↔ values p v m < values p v n) := by
  have h := C71_program_exact p st st' v hv hp hr
  refine ⟨(h n).isZero_iff, (h n).isOne_iff, C41_cmp_with_zero _ _ (h n), (C39_to_rational _ _ (h n)).1,
    (C39_to_rational _ _ (h n)).2, fun fuel k hk => integerFloor_sound fuel (h n) hk, ?_⟩
  intro m hm choose hc rng ffuel fuel
  unfold RealAlg.eq RealAlg.cmp
  cases h1 : (st' n).sub (factorCall choose rng ffuel) fuel (st' m) with
  | error e => simp [bind, Except.bind]
  | ok d =>
    have h2 := sub_clean choose hc rng ffuel fuel (h n) (h m) hm h1
    simp only [bind, Except.bind, pure, Except.pure, Except.ok.injEq]
    constructor
    · rintro r rfl
      rw [h2.isZero_iff, sub_eq_zero]
    · intro o ho
      obtain ⟨o', h3, h4, h5, h6⟩ := C41_cmp_with_zero d _ h2
      rw [ho] at h3
      cases h3
      rw [sub_neg] at h4
      rw [sub_eq_zero] at h5
      rw [sub_pos] at h6
      exact ⟨h4, h5, h6⟩

/-- C71: two runs of the same clean program on variables with the same values end with the same numbers in the
same variables, held with the same polynomials up to the sign, though random numbers and caches differed and
though the intervals at the start differed. -/
theorem C71_runs_agree (p : List Instr) (st₁ st₂ st₁' st₂' : ℕ → RealAlg) (v : ℕ → ℝ)
    (h₁ : ∀ n, (st₁ n).Represents (v n)) (h₂ : ∀ n, (st₂ n).Represents (v n)) (hp : CleanProgram p v)
    (hr₁ : Run p st₁ st₁') (hr₂ : Run p st₂ st₂') (n : ℕ) :
    (∀ x, (st₁' n).Represents x ↔ (st₂' n).Represents x) ∧
    ((st₁' n).poly.toPoly = (st₂' n).poly.toPoly ∨ (st₁' n).poly.toPoly = -(st₂' n).poly.toPoly) := by
  have g1 := C71_program_exact p st₁ st₁' v h₁ hp hr₁ n
  have g2 := C71_program_exact p st₂ st₂' v h₂ hp hr₂ n
  refine ⟨fun x => ?_, g2.poly_unique g1⟩
  constructor
  · intro h
    rwa [← g1.isolated x h.mem h.root] at g2
  · intro h
    rwa [← g2.isolated x h.mem h.root] at g1

/-! ## Programs over the rational numbers -/

namespace RealAlg

theorem integerFloor_rat {q : ℚ} (h : a.Represents q) (fuel : ℕ) : a.integerFloor fuel = .ok ⌊(q : ℝ)⌋ := by
  unfold RealAlg.integerFloor
  rw [h.toRational_rat]
  simp [bind, Except.bind, pure, Except.pure]

theorem integerCeil_rat {q : ℚ} (h : a.Represents q) (fuel : ℕ) : a.integerCeil fuel = .ok ⌈(q : ℝ)⌉ := by
  unfold RealAlg.integerCeil
  obtain ⟨n, h1, h2, -⟩ := h.neg
  rw [← Rat.cast_neg] at h2
  rw [h1]
  simp only [bind, Except.bind, integerFloor_rat h2, pure, Except.pure]
  rw [Rat.cast_neg, Int.floor_neg, neg_neg]

theorem integerTrunc_rat {q : ℚ} (h : a.Represents q) (fuel : ℕ) :
    a.integerTrunc fuel = .ok (truncate (q : ℝ)) := by
  unfold integerTrunc truncate
  obtain ⟨o, h1, h2, h3, h4⟩ := C41_cmp_with_zero a _ h
  rw [h1]
  cases o with
  | lt =>
    rw [if_neg (by rw [not_le]; exact h2.mp rfl)]
    exact integerCeil_rat h fuel
  | eq =>
    rw [h3.mp rfl]
    simp [bind, Except.bind, pure, Except.pure]
  | gt =>
    rw [if_pos (h4.mp rfl).le]
    exact integerFloor_rat h fuel

theorem mul_rat {p q : ℚ} (ha : a.Represents p) (hb : b.Represents q) (F : FactorCall) (fuel : ℕ) :
    a.mul F fuel b = .ok (ofRat (p * q)) := by
  unfold RealAlg.mul
  rw [ha.toRational_rat, hb.toRational_rat]
  rfl

theorem div_rat {p q : ℚ} (ha : a.Represents p) (hb : b.Represents q) (hq : q ≠ 0) (F : FactorCall)
    (fuel : ℕ) : a.div F fuel b = .ok (ofRat (p / q)) := by
  unfold RealAlg.div checkedExactDiv
  rw [hb.checkedRecip_rat, if_neg hq]
  simp only [bind, Except.bind, mul_rat ha (ofRat_represents q⁻¹), pure, Except.pure, orPanic]
  rw [div_eq_mul_inv]

/-- every defined instruction on rational numbers returns, without factoring and for every fuel -/
theorem call_rat (ln2 : ℕ → ℕ → DFI) (F : FactorCall) (fuel : ℕ) (st : ℕ → RealAlg) (w : ℕ → ℚ)
    (hv : ∀ n, (st n).Represents (w n)) (i : Instr) (hi : i.Defined fun n => w n) :
    ∃ (c : RealAlg) (q : ℚ), call ln2 F fuel st i = .ok c ∧ i.value (fun n => w n) = q ∧
      c.Represents q := by
  suffices hs : ∃ c : RealAlg, call ln2 F fuel st i = .ok c ∧ c.Represents (i.value fun n => w n) ∧
      ∃ q : ℚ, i.value (fun n => w n) = q by
    obtain ⟨c, h1, h2, q, h3⟩ := hs
    exact ⟨c, q, h1, h3, by rwa [h3] at h2⟩
  cases i with
  | const d q => exact ⟨_, rfl, ofRat_represents q, q, rfl⟩
  | copy d s => exact ⟨_, rfl, hv s, w s, rfl⟩
  | neg d s =>
    obtain ⟨n, h1, h2, -⟩ := (hv s).neg
    exact ⟨n, h1, h2, -w s, by simp [Instr.value]⟩
  | abs d s =>
    obtain ⟨n, h1, h2⟩ := (hv s).abs
    exact ⟨n, h1, h2, |w s|, by simp [Instr.value]⟩
  | floor d s =>
    refine ⟨ofInt ⌊((w s : ℚ) : ℝ)⌋, ?_, ofInt_represents _, ⌊((w s : ℚ) : ℝ)⌋, by simp [Instr.value]⟩
    simp only [call, RealAlg.floor, integerFloor_rat (hv s), bind, Except.bind, pure, Except.pure]
  | ceil d s =>
    obtain ⟨n, h1, h2, -⟩ := (hv s).neg
    rw [← Rat.cast_neg] at h2
    obtain ⟨m, h3, h4, -⟩ := (ofInt_represents ⌊((-w s : ℚ) : ℝ)⌋).neg
    refine ⟨m, ?_, ?_, ⌈((w s : ℚ) : ℝ)⌉, by simp [Instr.value]⟩
    · simp only [call, RealAlg.ceil, RealAlg.floor, h1, integerFloor_rat h2, bind, Except.bind, pure,
        Except.pure, h3]
    · rw [Rat.cast_neg, Int.floor_neg] at h4
      simpa [Instr.value] using h4
  | trunc d s =>
    refine ⟨ofInt (truncate ((w s : ℚ) : ℝ)), ?_, ofInt_represents _, truncate ((w s : ℚ) : ℝ),
      by simp [Instr.value]⟩
    simp only [call, RealAlg.trunc, integerTrunc_rat (hv s), bind, Except.bind, pure, Except.pure]
  | fract d s =>
    obtain ⟨c, h1, -, h2⟩ := C43_fract_rational_partial (st s) (w s) (hv s) F fuel
    have hi' : (0 : ℝ) ≤ w s := hi
    refine ⟨c, h1, h2 (Or.inl (by exact_mod_cast hi')), w s - ⌊((w s : ℚ) : ℝ)⌋, ?_⟩
    simp only [Instr.value, Rat.cast_sub, Rat.cast_intCast]
  | recip d s =>
    have hi' : (w s : ℝ) ≠ 0 := hi
    have h0 : w s ≠ 0 := by exact_mod_cast hi'
    refine ⟨ofRat (w s)⁻¹, ?_, ?_, (w s)⁻¹, by simp [Instr.value]⟩
    · simp only [call, RealAlg.recip, (hv s).checkedRecip_rat, if_neg h0]
      rfl
    · simp only [Instr.value]
      rw [← Rat.cast_inv]
      exact ofRat_represents _
  | pow d s e =>
    obtain ⟨h1, h2⟩ := hi
    by_cases h0 : w s = 0
    · have he : 0 < e := h2.resolve_left (by simp [h0])
      have h3 := hv s
      rw [h0, Rat.cast_zero] at h3
      obtain ⟨c, h4, h5⟩ := (C47_base_zero ln2 F fuel _ h3 e).1 he
      refine ⟨c, by simp only [call, h4]; rfl, ?_, 0, ?_⟩
      · simp only [Instr.value, h0, Rat.cast_zero, powValue_zero e he]
        exact h5
      · simp only [Instr.value, h0, Rat.cast_zero, powValue_zero e he]
    · obtain ⟨c, h4, h5⟩ := C47_integer_power_rational ln2 F fuel (st s) (w s) (hv s) h0 e.num
      rw [Rat.coe_int_num_of_den_eq_one h1] at h4
      refine ⟨c, by simp only [call, h4]; rfl, ?_, w s ^ e.num, ?_⟩
      · simp only [Instr.value, powValue, if_pos h1]
        exact h5
      · simp [Instr.value, powValue, if_pos h1]
  | add d s t =>
    obtain ⟨c, h1, h2⟩ := (C44_both_rational F _ _ _ _ (hv s) (hv t) fuel).1
    exact ⟨c, h1, h2, w s + w t, by simp [Instr.value]⟩
  | sub d s t =>
    obtain ⟨c, h1, h2⟩ := (C44_both_rational F _ _ _ _ (hv s) (hv t) fuel).2
    exact ⟨c, h1, h2, w s - w t, by simp [Instr.value]⟩
  | mul d s t =>
    refine ⟨_, mul_rat (hv s) (hv t) F fuel, ?_, w s * w t, by simp [Instr.value]⟩
    simp only [Instr.value]
    rw [← Rat.cast_mul]
    exact ofRat_represents _
  | div d s t =>
    have hi' : (w t : ℝ) ≠ 0 := hi
    have h0 : w t ≠ 0 := by exact_mod_cast hi'
    refine ⟨_, div_rat (hv s) (hv t) h0 F fuel, ?_, w s / w t, by simp [Instr.value]⟩
    simp only [Instr.value]
    rw [← Rat.cast_div]
    exact ofRat_represents _
  | rem d s t =>
    have hi' : (w t : ℝ) ≠ 0 := hi
    have h0 : w t ≠ 0 := by exact_mod_cast hi'
    have ht := integerTrunc_rat (ofRat_represents (w s / w t)) fuel
    have hm := mul_rat (a := ofInt (truncate ((w s / w t : ℚ) : ℝ)))
      (p := (truncate ((w s / w t : ℚ) : ℝ) : ℤ)) (by
        rw [Rat.cast_intCast]; exact ofInt_represents _) (hv t) F fuel
    obtain ⟨c, h1, h2⟩ := (C44_both_rational F _ _ _ _ (hv s)
      (ofRat_represents ((truncate ((w s / w t : ℚ) : ℝ) : ℤ) * w t)) fuel).2
    refine ⟨c, ?_, ?_, w s - (truncate ((w s / w t : ℚ) : ℝ) : ℤ) * w t, by simp [Instr.value]⟩
    · simp only [call, RealAlg.rem, div_rat (hv s) (hv t) h0, bind, Except.bind, RealAlg.trunc, ht, pure,
        Except.pure, hm, h1]
    · simp only [Instr.value]
      push_cast at h2
      exact h2
  | absSub d s t =>
    classical
    obtain ⟨c, h1, h2⟩ := (C44_both_rational F _ _ _ _ (hv s) (hv t) fuel).2
    have h3 := h2.isNegative_eq
    by_cases h0 : ((w s : ℚ) : ℝ) - w t < 0
    · refine ⟨zero, ?_, ?_, 0, ?_⟩
      · simp only [call, RealAlg.absSub, h1, bind, Except.bind, h3, h0, decide_true, if_true, pure,
          Except.pure]
      · simp only [Instr.value, max_eq_right h0.le]
        exact zero_represents
      · simp only [Instr.value, max_eq_right h0.le, Rat.cast_zero]
    · refine ⟨c, ?_, ?_, w s - w t, ?_⟩
      · simp only [call, RealAlg.absSub, h1, bind, Except.bind, h3, h0, decide_false, pure, Except.pure,
          Bool.false_eq_true, if_false]
      · simp only [Instr.value, max_eq_left (not_lt.mp h0)]
        exact h2
      · simp only [Instr.value, max_eq_left (not_lt.mp h0), Rat.cast_sub]

end RealAlg

/-- C71: a program over rational numbers in which everything is defined always runs to its end with the right
rational numbers in all variables, whatever `factor`, the cache and the fuel are: nothing is factored. -/
theorem C71_rational_program (ln2 : ℕ → ℕ → DFI) (F : FactorCall) (fuel : ℕ) (p : List Instr)
    (st : ℕ → RealAlg) (v : ℕ → ℝ) (hv : ∀ n, (st n).Represents (v n)) (hq : ∀ n, ¬ Irrational (v n))
    (hp : DefinedProgram p v) :
    ∃ st', exec ln2 F fuel p st = .ok st' ∧
      ∀ n, (st' n).Represents (values p v n) ∧ ¬ Irrational (values p v n) := by
  induction p generalizing st v with
  | nil => exact ⟨st, rfl, fun n => ⟨hv n, hq n⟩⟩
  | cons i p ih =>
    choose w hw using fun n => not_not.mp (hq n)
    obtain rfl : v = fun n => (w n : ℝ) := funext fun n => (hw n).symm
    obtain ⟨c, q, h1, h2, h3⟩ := call_rat ln2 F fuel st w hv i hp.1
    have g1 : ∀ n, (Function.update st i.target c n).Represents
        (Function.update (fun n => (w n : ℝ)) i.target (i.value fun n => w n) n) := by
      intro n
      by_cases hn : n = i.target
      · subst hn
        simp only [Function.update_self, h2]
        exact h3
      · rw [Function.update_of_ne hn, Function.update_of_ne hn]
        exact hv n
    have g2 : ∀ n, ¬ Irrational (Function.update (fun n => (w n : ℝ)) i.target (i.value fun n => w n) n) := by
      intro n
      by_cases hn : n = i.target
      · subst hn
        simp only [Function.update_self, h2]
        exact not_not.mpr ⟨q, rfl⟩
      · rw [Function.update_of_ne hn]
        exact hq n
    obtain ⟨st', h4, h5⟩ := ih _ _ g1 g2 hp.2
    exact ⟨st', by simp only [exec, h1, bind, Except.bind]; exact h4, h5⟩

/-! ## Examples -/

/-- a program over the rational numbers: `x := 7/2; y := -1/3; z := x % y; z := z - x; z := z^(-3)` -/
example (ln2 : ℕ → ℕ → DFI) (F : FactorCall) (fuel : ℕ) :
    ∃ st', exec ln2 F fuel [.const 0 (7 / 2), .const 1 (-1 / 3), .rem 2 0 1, .sub 2 2 0, .pow 2 2 (-3)]
      (fun _ => ofInt 0) = .ok st' ∧ (st' 2).Represents ((1 / 6 - 7 / 2 : ℝ) ^ (-3 : ℤ)) := by
  have ht : truncate ((7 / 2 : ℝ) / (-1 / 3)) = -10 := by
    unfold truncate
    rw [if_neg (by norm_num), Int.ceil_eq_iff]
    norm_num
  have hden : (-3 : ℚ).den = 1 := rfl
  have hv2 : ((7 / 2 : ℝ) - truncate ((7 / 2 : ℝ) / (-1 / 3)) * (-1 / 3)) - 7 / 2 = 1 / 6 - 7 / 2 := by
    rw [ht]; norm_num
  obtain ⟨st', h1, h2⟩ := C71_rational_program ln2 F fuel
    [.const 0 (7 / 2), .const 1 (-1 / 3), .rem 2 0 1, .sub 2 2 0, .pow 2 2 (-3)] (fun _ => ofInt 0)
    (fun _ => 0) (fun _ => by simpa using ofInt_represents 0) (fun _ => not_not.mpr ⟨0, by simp⟩)
    (by
      refine ⟨trivial, trivial, ?_, trivial, ⟨hden, Or.inl ?_⟩, trivial⟩
      · simp [Instr.target, Instr.value, Instr.Defined]
      · simp only [Instr.target, Instr.value, Function.update_self]
        norm_num [Function.update]
        norm_num at ht
        rw [ht]
        norm_num)
  refine ⟨st', h1, ?_⟩
  have h3 := (h2 2).1
  simp only [values, Instr.target, Instr.value, Function.update_self, powValue, if_pos hden] at h3
  norm_num [Function.update] at h3
  norm_num at ht
  rw [ht] at h3
  norm_num at h3 ⊢
  exact h3

/-- a number is safe as the first summand, and its sum can be rounded: `x := √2 + ∛2; y := floor(x)`. The program
is clean, it has a run, and afterwards `y` is the integer part of the sum. -/
example : ∃ st', Run [.add 2 0 1, .floor 3 2] (fun n => if n = 0 then sqrtTwo else cbrtTwo) st' ∧
    (st' 3).Represents (⌊√2 + (2 : ℝ) ^ (1 / 3 : ℝ)⌋ : ℤ) := by
  obtain ⟨rng, hfair⟩ := exists_fair
  obtain ⟨M, hM⟩ := C44_add_total_partial firstSmallest firstSmallest_order rng hfair sqrtTwo cbrtTwo _ _
    sqrtTwo_represents cbrtTwo_represents sqrtTwo_cbrtTwo sqrtTwo_cbrtTwo_moderate
  obtain ⟨N, hN⟩ := hM M le_rfl
  obtain ⟨c, h1, h2⟩ := hN N le_rfl
  obtain ⟨K, hK⟩ := h2.integerFloor
  have hrun : Run [.add 2 0 1, .floor 3 2] (fun n => if n = 0 then sqrtTwo else cbrtTwo)
      (Function.update (Function.update (fun n => if n = 0 then sqrtTwo else cbrtTwo) 2 c) 3
        (ofInt ⌊√2 + (2 : ℝ) ^ (1 / 3 : ℝ)⌋)) := by
    refine ⟨_, ⟨fun _ => ln2Direct, firstSmallest, rng, M, N, c, fun _ => C06_ln2_direct, firstSmallest_order, ?_, rfl⟩, _,
      ⟨fun _ => ln2Direct, firstSmallest, rng, M, K, _, fun _ => C06_ln2_direct, firstSmallest_order, ?_, rfl⟩, rfl⟩
    · exact h1
    · simp only [call, Instr.target, RealAlg.floor, Function.update_self, hK K le_rfl]
      rfl
  refine ⟨_, hrun, ?_⟩
  have h3 := C71_program_exact [.add 2 0 1, .floor 3 2] _ _ (fun n => if n = 0 then √2 else (2 : ℝ) ^ (1 / 3 : ℝ)) (fun n => by
    by_cases hn : n = 0
    · simp only [hn, if_true]; exact sqrtTwo_represents
    · simp only [hn, if_false]; exact cbrtTwo_represents)
    ⟨Or.inl ((sqrtTwo_represents.coprime_iff cbrtTwo_represents).mpr sqrtTwo_cbrtTwo), trivial, trivial⟩ hrun 3
  simpa [values, Instr.target, Instr.value] using h3

/-- a power and its integer part: `x := 2; y := x^(1/2); z := floor(y)`; in particular the square root of two,
computed from the number two -/
example : ∃ st', Run [.const 0 2, .pow 1 0 (1 / 2), .floor 2 1] (fun _ => ofInt 0) st' ∧
    (st' 1).Represents (√2) ∧ (st' 2).Represents (⌊√2⌋ : ℤ) := by
  obtain ⟨rng, hfair⟩ := exists_fair
  have hv : powValue ((2 : ℕ) : ℝ) (1 / 2) = √2 := by
    unfold powValue
    rw [if_neg (by norm_num), Real.sqrt_eq_rpow]
    norm_num
  obtain ⟨M, hM⟩ := C47_integer_root_total_partial (fun _ => ln2Direct) (fun _ => C06_ln2_direct) firstSmallest firstSmallest_order
    rng hfair 2 (by norm_num) (1 / 2) (by norm_num) (by norm_num)
    (by rw [show Nat.log 2 2 = 1 by decide +kernel]; norm_num)
  obtain ⟨c, h1, h2⟩ := hM M le_rfl 1 le_rfl
  rw [hv] at h2
  obtain ⟨K, hK⟩ := h2.integerFloor
  have hrun : Run [.const 0 2, .pow 1 0 (1 / 2), .floor 2 1] (fun _ => ofInt 0)
      (Function.update (Function.update (Function.update (fun _ => ofInt 0) 0 (ofRat 2)) 1 c) 2
        (ofInt ⌊√2⌋)) := by
    refine ⟨_, ⟨fun _ => ln2Direct, firstSmallest, rng, M, 1, _, fun _ => C06_ln2_direct, firstSmallest_order, rfl, rfl⟩, _,
      ⟨fun _ => ln2Direct, firstSmallest, rng, M, 1, c, fun _ => C06_ln2_direct, firstSmallest_order, ?_, rfl⟩, _,
      ⟨fun _ => ln2Direct, firstSmallest, rng, M, K, _, fun _ => C06_ln2_direct, firstSmallest_order, ?_, rfl⟩, rfl⟩
    · simp only [call, Instr.target, Function.update_self]
      rw [show ofRat 2 = ofInt (2 : ℕ) by decide +kernel, h1]
      rfl
    · simp only [call, Instr.target, RealAlg.floor, Function.update_self, hK K le_rfl]
      rfl
  refine ⟨_, hrun, ?_⟩
  have hclean : CleanProgram [.const 0 2, .pow 1 0 (1 / 2), .floor 2 1] (fun _ => 0) := by
    refine ⟨trivial, Or.inr (Or.inr (Or.inl ⟨?_, by norm_num, ?_, ?_⟩)), trivial, trivial⟩
    · simp [Instr.target, Instr.value]
    · simp only [Instr.target, Instr.value, Function.update_self]
      simpa using isIntegral_algebraMap (R := ℤ) (A := ℝ) (x := 2)
    · simp only [Instr.target, Instr.value, Function.update_self]
      exact PowerAlone.of_root (by norm_num) 1 one_pos 2 (by norm_num) _
  have h3 := C71_program_exact _ _ _ (fun _ => 0) (fun _ => by simpa using ofInt_represents 0) hclean hrun
  have h4 := h3 1
  have h5 := h3 2
  have hv' : powValue 2 (1 / 2) = √2 := by simpa using hv
  simp only [values, Instr.target, Instr.value, Function.update_self] at h4 h5
  norm_num [Function.update] at h4 h5
  norm_num at hv'
  rw [hv'] at h4 h5
  exact ⟨h4, h5⟩

end Algebraics
