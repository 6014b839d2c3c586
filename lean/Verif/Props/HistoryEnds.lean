import Verif.Spec.HistoryEnds
import Verif.Props.History

/-!
Property C71, continued: programs over algebraic numbers come to an end, with the code's own `factor` and fair
random numbers, when no call is exceptional and no number is of immense size.
-/

namespace Algebraics

open Polynomial RealAlg

variable {a b c : RealAlg} {x y : ℝ}

namespace RealAlg

/-- the polynomial of a number is the only irreducible one with it as a root, up to the sign -/
theorem Represents.poly_of_root (ha : a.Represents x) {p : ℤ[X]} (hp : Irreducible p) (hr : aeval x p = 0) :
    p = a.poly.toPoly ∨ p = -a.poly.toPoly := by
  have hx := (aeval_realCast _ _).mpr ha.root
  have hx' := (aeval_realCast x p).mpr hr
  have h := minpoly.dvd ℚ (x : ℂ) ((aeval_map_int _ _).trans hx')
  rw [minpoly_root ha.irreducible ha.natDegree_pos hx] at h
  have hprim := ha.irreducible.isPrimitive (by have := ha.natDegree_pos; omega)
  have hd : a.poly.toPoly ∣ p :=
    (IsPrimitive.Int.dvd_iff_map_cast_dvd_map_cast _ _ hprim).mpr (dvd_of_mul_right_dvd h)
  obtain ⟨u, hu⟩ := ha.irreducible.associated_of_dvd hp hd
  obtain ⟨e, he, he'⟩ := Polynomial.isUnit_iff.mp u.isUnit
  rw [← he'] at hu
  rcases Int.isUnit_iff.mp he with rfl | rfl
  · left; rw [← hu]; simp
  · right; rw [← hu]; simp

theorem Represents.sizedPair (ha : a.Represents x) (hb : b.Represents y) :
    SizedPair x y ↔ a.poly.ModeratePair b.poly := by
  constructor
  · rintro ⟨p, q, h1, h2, h3, h4, g, h, hg, hh, hs⟩
    have hp := ha.poly_of_root h1 h2
    have hq := hb.poly_of_root h3 h4
    have d1 : p.natDegree = a.poly.toPoly.natDegree := by rcases hp with e | e <;> rw [e]; rw [natDegree_neg]
    have d2 : q.natDegree = b.poly.toPoly.natDegree := by rcases hq with e | e <;> rw [e]; rw [natDegree_neg]
    rw [d1, d2] at hs
    refine ⟨g, h, fun i => ?_, fun i => ?_, hs⟩
    · have := hg i
      rcases hp with e | e <;> rw [e] at this
      · exact this
      · rwa [coeff_neg, abs_neg] at this
    · have := hh i
      rcases hq with e | e <;> rw [e] at this
      · exact this
      · rwa [coeff_neg, abs_neg] at this
  · rintro ⟨g, h, h1, h2, h3⟩
    exact ⟨_, _, ha.irreducible, ha.root, hb.irreducible, hb.root, g, h, h1, h2, h3⟩

variable (choose : ℕ → List ℕ → ℕ) (hc : Poly.HeapOrder choose) (rng : ℕ → ℕ) (hfair : Fair rng)

include hc hfair

theorem add_halts (ha : a.Represents x) (hb : b.Represents y) (hs : CleanSum x y)
    (hm : a.poly.ModeratePair b.poly) :
    ∃ M, ∀ ffuel ≥ M, ∃ N, ∀ fuel ≥ N, ∃ c, a.add (factorCall choose rng ffuel) fuel b = .ok c := by
  rcases hs with hs | ⟨h1, h2, h3⟩
  · obtain ⟨M, hM⟩ := C44_add_total_partial choose hc rng hfair a b x y ha hb ((ha.coprime_iff hb).mp hs) hm
    exact ⟨M, fun f hf => (hM f hf).imp fun N hN fuel hfu => (hN fuel hfu).imp fun c hc => hc.1⟩
  · obtain ⟨M, hM⟩ := C44_add_total_integers_partial choose hc rng hfair a b x y ha hb
      (by rw [ha.leading_of_integral h1, hb.leading_of_integral h2]; norm_num)
      (fun q h => h3 q ((hb.conj_real_iff _).mp h)) hm
    exact ⟨M, fun f hf => (hM f hf).imp fun N hN fuel hfu => (hN fuel hfu).imp fun c hc => hc.1⟩

theorem sub_halts (ha : a.Represents x) (hb : b.Represents y) (hs : CleanSum x (-y))
    (hm : a.poly.ModeratePair b.poly) :
    ∃ M, ∀ ffuel ≥ M, ∃ N, ∀ fuel ≥ N, ∃ c, a.sub (factorCall choose rng ffuel) fuel b = .ok c := by
  obtain ⟨n, h1, h2, -⟩ := hb.neg
  obtain ⟨M, hM⟩ := add_halts choose hc rng hfair ha h2 hs (moderate_neg hb h1 _ hm)
  refine ⟨M, fun f hf => (hM f hf).imp fun N hN fuel hfu => (hN fuel hfu).imp fun c hc => ?_⟩
  unfold RealAlg.sub
  rw [h1]
  exact hc

theorem mul_halts (ha : a.Represents x) (hb : b.Represents y) (hs : CleanProduct x y)
    (hm : a.poly.ModeratePair b.poly) :
    ∃ M, ∀ ffuel ≥ M, ∃ N, ∀ fuel ≥ N, ∃ c, a.mul (factorCall choose rng ffuel) fuel b = .ok c := by
  rcases hs with hs | ⟨h1, h2, h3⟩
  · obtain ⟨M, hM⟩ := C45_mul_total_partial choose hc rng hfair a b x y ha hb ((ha.coprime_iff hb).mp hs) hm
    exact ⟨M, fun f hf => (hM f hf).imp fun N hN fuel hfu => (hN fuel hfu).imp fun c hc => hc.1⟩
  · obtain ⟨M, hM⟩ := C45_mul_total_integers_partial choose hc rng hfair a b x y ha hb
      (by rw [ha.leading_of_integral h1, hb.leading_of_integral h2]; norm_num)
      (fun q h => h3 q ((hb.conj_real_iff _).mp h)) hm
    exact ⟨M, fun f hf => (hM f hf).imp fun N hN fuel hfu => (hN fuel hfu).imp fun c hc => hc.1⟩

omit hc hfair in
/-- the reciprocal ends, and keeps the size -/
theorem recip_halts (hb : b.Represents y) (hy : y ≠ 0) (hr : CleanRecip y) :
    ∃ (r : RealAlg) (K : ℕ), (∀ fuel ≥ K, b.checkedRecip fuel = .ok (some r)) ∧ r.Represents y⁻¹ ∧
      ∀ p : Poly ℤ, p.ModeratePair b.poly → p.ModeratePair r.poly := by
  by_cases hirr : Irrational y
  · obtain ⟨K, hK⟩ := C40_recip_one_sign_partial b y hb hirr fun z hz =>
      hr hirr z ((hb.conj_real_iff z).mp hz)
    obtain ⟨r, h1, h2⟩ := hK K le_rfl
    exact ⟨r, K, fun fuel hf => checkedRecip_mono b K _ h1 fuel hf, h2,
      fun p hm => moderate_recip_irr hb hirr K h1 p hm⟩
  · obtain ⟨q, rfl⟩ := not_not.mp hirr
    have hq : q ≠ 0 := fun e => hy (by rw [e, Rat.cast_zero])
    have h := ofRat_represents q⁻¹
    rw [Rat.cast_inv] at h
    exact ⟨ofRat q⁻¹, 0, fun fuel _ => by rw [hb.checkedRecip_rat, if_neg hq], h,
      fun p hm => moderate_recip_rat hb hq p hm⟩

theorem div_halts (ha : a.Represents x) (hb : b.Represents y) (hy : y ≠ 0) (hr : CleanRecip y)
    (hs : CleanProduct x y⁻¹) (hm : a.poly.ModeratePair b.poly) :
    ∃ M, ∀ ffuel ≥ M, ∃ N, ∀ fuel ≥ N, ∃ c, a.div (factorCall choose rng ffuel) fuel b = .ok c := by
  obtain ⟨r, K, hK, h1, h2⟩ := recip_halts hb hy hr
  obtain ⟨M, hM⟩ := mul_halts choose hc rng hfair ha h1 hs (h2 _ hm)
  refine ⟨M, fun ffuel hf => ?_⟩
  obtain ⟨N, hN⟩ := hM ffuel hf
  refine ⟨max K N, fun fuel hf => ?_⟩
  obtain ⟨c, h3⟩ := hN fuel (le_trans (le_max_right _ _) hf)
  refine ⟨c, ?_⟩
  unfold RealAlg.div checkedExactDiv
  rw [hK fuel (le_trans (le_max_left _ _) hf)]
  simp [bind, Except.bind, pure, Except.pure, h3, orPanic]

theorem rem_halts (ha : a.Represents x) (hb : b.Represents y) (hy : y ≠ 0) (hr : CleanRecip y)
    (hs : CleanProduct x y⁻¹) (hd : CleanSum x (-(truncate (x / y) * y))) (hm : SizedPair x y)
    (hm1 : SizedPair (truncate (x / y)) y) (hm2 : SizedPair x (truncate (x / y) * y)) :
    ∃ M, ∀ ffuel ≥ M, ∃ N, ∀ fuel ≥ N, ∃ c, a.rem (factorCall choose rng ffuel) fuel b = .ok c := by
  have hi := ofInt_represents (truncate (x / y))
  rw [hi.sizedPair hb] at hm1
  obtain ⟨M1, hM1⟩ := div_halts choose hc rng hfair ha hb hy hr hs ((ha.sizedPair hb).mp hm)
  obtain ⟨M2, hM2⟩ := C45_mul_total_partial choose hc rng hfair _ b _ y hi hb
    (coprime_of_rat hi hb (Or.inl (not_not.mpr ⟨truncate (x / y), by push_cast; rfl⟩))) hm1
  obtain ⟨M3, hM3⟩ : ∃ M3, ∀ ffuel ≥ M3, ∀ R, ((truncate (x / y) : ℤ) : ℝ) ≠ 0 → y ≠ 0 →
      mulResultant (ofInt (truncate (x / y))).poly b.poly = some R →
      factorCall choose rng ffuel R = factorCall choose rng M3 R := by
    by_cases ht : ((truncate (x / y) : ℤ) : ℝ) = 0
    · exact ⟨0, fun _ _ _ h => absurd ht h⟩
    cases hR : mulResultant (ofInt (truncate (x / y))).poly b.poly with
    | none => exact ⟨0, fun _ _ _ _ _ h => by cases h⟩
    | some R =>
      obtain ⟨M3, r, hM3⟩ := factorCall_settles choose hc rng hfair R
        (mulResultant_moderate _ _ R (hi.coeff_zero_ne ht) (hb.coeff_zero_ne hy) hm1 hR)
      refine ⟨M3, fun ffuel hf R' _ _ h => ?_⟩
      cases h
      rw [hM3 ffuel hf, hM3 M3 le_rfl]
  obtain ⟨N2, hN2⟩ := hM2 (max M2 M3) (le_max_left _ _)
  obtain ⟨e, h1, h2⟩ := hN2 N2 le_rfl
  obtain ⟨M4, hM4⟩ := sub_halts choose hc rng hfair ha h2 hd ((ha.sizedPair h2).mp hm2)
  refine ⟨max (max M1 M2) (max M3 M4), fun ffuel hf => ?_⟩
  obtain ⟨N1, hN1⟩ := hM1 ffuel (by omega)
  obtain ⟨d, h3⟩ := hN1 N1 le_rfl
  have h4 := div_clean choose hc rng ffuel N1 ha hb hr hs h3
  obtain ⟨N4, hN4⟩ := hM4 ffuel (by omega)
  have h5 : (ofInt (truncate (x / y))).mul (factorCall choose rng ffuel) N2 b = .ok e := by
    rw [← h1]
    refine mul_congr _ _ _ b N2 _ y hi hb fun R h h' hR => ?_
    rw [hM3 ffuel (by omega) R h h' hR, hM3 (max M2 M3) (le_max_right _ _) R h h' hR]
  obtain ⟨N, hN⟩ := rem_of_steps _ a b d e x y N1 N2 h3 h4 h5 ⟨N4, fun fuel hf => by
    obtain ⟨c, h6⟩ := hN4 fuel hf
    exact ⟨c, h6, sub_clean choose hc rng ffuel fuel ha h2 hd h6⟩⟩
  exact ⟨N, fun fuel hf => (hN fuel hf).imp fun c hc => hc.1⟩

theorem absSub_halts (ha : a.Represents x) (hb : b.Represents y) (hs : CleanSum x (-y))
    (hm : a.poly.ModeratePair b.poly) :
    ∃ M, ∀ ffuel ≥ M, ∃ N, ∀ fuel ≥ N, ∃ c, a.absSub (factorCall choose rng ffuel) fuel b = .ok c := by
  obtain ⟨M, hM⟩ := sub_halts choose hc rng hfair ha hb hs hm
  refine ⟨M, fun f hf => (hM f hf).imp fun N hN fuel hfu => ?_⟩
  obtain ⟨d, h1⟩ := hN fuel hfu
  have h2 := (sub_clean choose hc rng f fuel ha hb hs h1).isNegative_eq
  unfold RealAlg.absSub
  rw [h1]
  simp only [bind, Except.bind, h2]
  split
  · exact ⟨_, rfl⟩
  · exact ⟨_, rfl⟩

theorem call_halts (ln2 : ℕ → ℕ → DFI) (hln2 : ∀ t, IsLn2 (ln2 t)) (st : ℕ → RealAlg) (v : ℕ → ℝ)
    (hv : ∀ n, (st n).Represents (v n)) (K : ℕ → Prop) (hK : ∀ n, K n → ∃ q, st n = ofRat q)
    (i : Instr) (hi : i.Clean v) (hs : i.Sized K v) (h0 : i.NoZero v) :
    ∃ M, ∀ ffuel ≥ M, ∃ N, ∀ fuel ≥ N, ∃ c, call ln2 (factorCall choose rng ffuel) fuel st i = .ok c := by
  cases i with
  | const d q => exact ⟨0, fun _ _ => ⟨0, fun _ _ => ⟨_, rfl⟩⟩⟩
  | copy d s => exact ⟨0, fun _ _ => ⟨0, fun _ _ => ⟨_, rfl⟩⟩⟩
  | neg d s =>
    obtain ⟨n, h1, -⟩ := (hv s).neg
    exact ⟨0, fun _ _ => ⟨0, fun _ _ => ⟨n, h1⟩⟩⟩
  | abs d s =>
    obtain ⟨n, h1, -⟩ := (hv s).abs
    exact ⟨0, fun _ _ => ⟨0, fun _ _ => ⟨n, h1⟩⟩⟩
  | floor d s =>
    obtain ⟨N, hN⟩ := (hv s).integerFloor
    refine ⟨0, fun _ _ => ⟨N, fun fuel hf => ⟨ofInt ⌊v s⌋, ?_⟩⟩⟩
    simp only [call, RealAlg.floor, hN fuel hf, bind, Except.bind, pure, Except.pure]
  | ceil d s =>
    obtain ⟨n, h1, h2, -⟩ := (hv s).neg
    obtain ⟨N, hN⟩ := h2.integerFloor
    obtain ⟨m, h3, -⟩ := (ofInt_represents ⌊-v s⌋).neg
    refine ⟨0, fun _ _ => ⟨N, fun fuel hf => ⟨m, ?_⟩⟩⟩
    simp only [call, RealAlg.ceil, RealAlg.floor, h1, hN fuel hf, bind, Except.bind, pure, Except.pure, h3]
  | trunc d s =>
    obtain ⟨N, hN⟩ := (hv s).integerTrunc
    refine ⟨0, fun _ _ => ⟨N, fun fuel hf => ⟨ofInt (truncate (v s)), ?_⟩⟩⟩
    simp only [call, RealAlg.trunc, hN fuel hf, bind, Except.bind, pure, Except.pure]
    rfl
  | fract d s =>
    by_cases hirr : Irrational (v s)
    · obtain ⟨M, hM⟩ := C43_fract_total_partial choose hc rng hfair (st s) (v s) (hv s) hirr
        (((hv s).sizedPair (ofInt_represents _)).mp (hs hirr))
      exact ⟨M, fun f hf => (hM f hf).imp fun N hN fuel hfu => (hN fuel hfu).imp fun c hc => hc.1⟩
    · obtain ⟨q, hq⟩ := not_not.mp hirr
      have h := hv s
      rw [← hq] at h
      refine ⟨0, fun ffuel _ => ⟨0, fun fuel _ => ?_⟩⟩
      obtain ⟨c, h1, -⟩ := C43_fract_rational_partial (st s) q h (factorCall choose rng ffuel) fuel
      exact ⟨c, h1⟩
  | recip d s =>
    obtain ⟨r, N, hN, -⟩ := recip_halts (hv s) h0 hi
    refine ⟨0, fun _ _ => ⟨N, fun fuel hf => ⟨r, ?_⟩⟩⟩
    simp only [call, RealAlg.recip, hN fuel hf]
    rfl
  | pow d s e =>
    rcases hs with ⟨h1, h2⟩ | ⟨h1, m, h2, h3, h4, h5, h6⟩
    · obtain ⟨q, hq⟩ := not_not.mp h1
      have h := hv s
      rw [← hq] at h
      refine ⟨0, fun ffuel _ => ⟨0, fun fuel _ => ?_⟩⟩
      by_cases hq0 : q = 0
      · have he : 0 < e := h0.resolve_left (by rw [← hq, hq0]; simp)
        rw [hq0, Rat.cast_zero] at h
        obtain ⟨c, h3, -⟩ := (C47_base_zero ln2 (factorCall choose rng ffuel) fuel _ h e).1 he
        exact ⟨c, by simp only [call, h3]; rfl⟩
      · obtain ⟨c, h3, -⟩ := C47_integer_power_rational ln2 (factorCall choose rng ffuel) fuel _ q h hq0 e.num
        rw [Rat.coe_int_num_of_den_eq_one h2] at h3
        exact ⟨c, by simp only [call, h3]; rfl⟩
    · obtain ⟨q, hq⟩ := hK s h1
      have h := hv s
      rw [hq, h2] at h
      have hqm : q = m := by exact_mod_cast (ofRat_represents q).unique h
      have hof : ofRat (m : ℚ) = ofInt m := by unfold ofRat; simp
      rw [hqm, hof] at hq
      obtain ⟨M, hM⟩ := C47_integer_root_total_partial ln2 hln2 choose hc rng hfair m h3 e h4 h5 h6
      refine ⟨M, fun ffuel hf => ⟨1, fun fuel hfu => ?_⟩⟩
      obtain ⟨c, h7, -⟩ := hM ffuel hf fuel hfu
      exact ⟨c, by simp only [call, hq, h7]; rfl⟩
  | add d s t => exact add_halts choose hc rng hfair (hv s) (hv t) hi (((hv s).sizedPair (hv t)).mp hs)
  | sub d s t => exact sub_halts choose hc rng hfair (hv s) (hv t) hi (((hv s).sizedPair (hv t)).mp hs)
  | mul d s t => exact mul_halts choose hc rng hfair (hv s) (hv t) hi (((hv s).sizedPair (hv t)).mp hs)
  | div d s t =>
    exact div_halts choose hc rng hfair (hv s) (hv t) h0 hi.1 hi.2 (((hv s).sizedPair (hv t)).mp hs)
  | rem d s t =>
    exact rem_halts choose hc rng hfair (hv s) (hv t) h0 hi.1 hi.2.1 hi.2.2 hs.1 hs.2.1 hs.2.2
  | absSub d s t => exact absSub_halts choose hc rng hfair (hv s) (hv t) hi (((hv s).sizedPair (hv t)).mp hs)

omit hc hfair in
/-- what a call stores in a variable that is then known to hold a number made from a ratio -/
theorem call_fresh (ln2 : ℕ → ℕ → DFI) (F : FactorCall) (fuel : ℕ) (st : ℕ → RealAlg) (K : ℕ → Prop)
    (hK : ∀ n, K n → ∃ q, st n = ofRat q) (i : Instr) (hi : i.Fresh K)
    (h : call ln2 F fuel st i = .ok c) : ∃ q, c = ofRat q := by
  have hof : ∀ m : ℤ, ofInt m = ofRat m := by intro m; unfold ofRat; simp
  cases i with
  | const d q => cases h; exact ⟨q, rfl⟩
  | copy d s => cases h; exact hK s hi
  | floor d s =>
    simp only [call, RealAlg.floor] at h
    cases h1 : (st s).integerFloor fuel with
    | error e => rw [h1] at h; cases h
    | ok m => rw [h1] at h; cases h; exact ⟨m, hof m⟩
  | trunc d s =>
    simp only [call, RealAlg.trunc] at h
    cases h1 : (st s).integerTrunc fuel with
    | error e => rw [h1] at h; cases h
    | ok m => rw [h1] at h; cases h; exact ⟨m, hof m⟩
  | neg | abs | ceil | fract | recip | pow | add | sub | mul | div | rem | absSub => exact hi.elim

end RealAlg

/-- C71: a program, however long, all of whose calls are clean, divide by no zero and get numbers of moderate
size, comes to its end, with the code's own `factor`, and then every variable holds exactly the number that it
should hold in mathematics. -/
theorem C71_program_ends (p : List Instr) (st : ℕ → RealAlg) (v : ℕ → ℝ) (K : ℕ → Prop)
    (hv : ∀ n, (st n).Represents (v n)) (hK : ∀ n, K n → ∃ q, st n = ofRat q)
    (hp : CleanProgram p v) (hs : SizedProgram p K v) :
    EndsWith (fun st' => ∀ n, (st' n).Represents (values p v n)) p st := by
  induction p generalizing st v K with
  | nil => exact hv
  | cons i p ih =>
    intro ln2 choose rng h1 h2 h3
    obtain ⟨M, hM⟩ := call_halts choose h2 rng h3 ln2 h1 st v hv K hK i hp.1 hs.1 hs.2.1
    refine ⟨M, fun ffuel hf => (hM ffuel hf).imp fun N hN fuel hfu => ?_⟩
    obtain ⟨c, h4⟩ := hN fuel hfu
    refine ⟨c, h4, ih _ _ _ (fun n => ?_) (fun n hn => ?_) hp.2 hs.2.2⟩
    · by_cases hn : n = i.target
      · subst hn
        simp only [Function.update_self]
        exact call_clean ln2 h1 choose h2 rng ffuel fuel st v hv i hp.1 h4
      · rw [Function.update_of_ne hn, Function.update_of_ne hn]
        exact hv n
    · by_cases hn' : n = i.target
      · subst hn'
        rw [Function.update_self] at hn ⊢
        exact call_fresh ln2 _ fuel st K hK i hn h4
      · rw [Function.update_of_ne hn'] at hn ⊢
        exact hK n hn

/-- C71: in particular such a program has a run. -/
theorem C71_program_runs (p : List Instr) (st : ℕ → RealAlg) (Q : (ℕ → RealAlg) → Prop)
    (h : EndsWith Q p st) : ∃ st', Run p st st' ∧ Q st' := by
  induction p generalizing st with
  | nil => exact ⟨st, rfl, h⟩
  | cons i p ih =>
    obtain ⟨rng, hfair⟩ := exists_fair
    obtain ⟨M, hM⟩ := h (fun _ => ln2Direct) firstSmallest rng (fun _ => C06_ln2_direct)
      firstSmallest_order hfair
    obtain ⟨N, hN⟩ := hM M le_rfl
    obtain ⟨c, h1, h2⟩ := hN N le_rfl
    obtain ⟨st', h3, h4⟩ := ih _ h2
    exact ⟨st', ⟨_, ⟨_, _, rng, M, N, c, fun _ => C06_ln2_direct, firstSmallest_order, h1, rfl⟩, h3⟩, h4⟩

theorem EndsWith.imp {Q Q' : (ℕ → RealAlg) → Prop} (hQ : ∀ st, Q st → Q' st) (p : List Instr)
    (st : ℕ → RealAlg) (h : EndsWith Q p st) : EndsWith Q' p st := by
  induction p generalizing st with
  | nil => exact hQ _ h
  | cons i p ih =>
    intro ln2 choose rng h1 h2 h3
    obtain ⟨M, hM⟩ := h ln2 choose rng h1 h2 h3
    exact ⟨M, fun f hf => (hM f hf).imp fun N hN fuel hfu => (hN fuel hfu).imp fun c hc =>
      ⟨hc.1, ih _ hc.2⟩⟩

/-- from constants to an irrational number and its integer part: `x := 2; y := x^(1/2); z := x^(1/3); w := y + z;
f := floor(w)` comes to its end, with the integer part of `√2 + ∛2` -/
example (st : ℕ → RealAlg) (hst : ∀ n, (st n).Represents 0) :
    EndsWith (fun st' => (st' 3).Represents (√2 + 2 ^ (1 / 3 : ℝ)) ∧
        (st' 4).Represents (⌊√2 + (2 : ℝ) ^ (1 / 3 : ℝ)⌋ : ℤ))
      [.const 0 2, .pow 1 0 (1 / 2), .pow 2 0 (1 / 3), .add 3 1 2, .floor 4 3] st := by
  have e2 : powValue 2 (1 / 2) = √2 := by
    unfold powValue
    rw [if_neg (by norm_num), Real.sqrt_eq_rpow]
    norm_num
  have e3 : powValue 2 (1 / 3) = (2 : ℝ) ^ (1 / 3 : ℝ) := by
    unfold powValue
    rw [if_neg (by norm_num)]
    norm_num
  have hint : IsIntegral ℤ (2 : ℝ) := by simpa using isIntegral_algebraMap (R := ℤ) (A := ℝ) (x := 2)
  have hlog : Nat.log 2 2 = 1 := by decide +kernel
  have hal : ∀ n, PowerAlone 2 n := fun n => PowerAlone.of_root (by norm_num) 1 one_pos 2 (by norm_num) n
  have hc := (sqrtTwo_represents.coprime_iff cbrtTwo_represents).mpr sqrtTwo_cbrtTwo
  have hm := (sqrtTwo_represents.sizedPair cbrtTwo_represents).mpr sqrtTwo_cbrtTwo_moderate
  refine EndsWith.imp (fun st' h => ?_) _ _ (C71_program_ends
    [.const 0 2, .pow 1 0 (1 / 2), .pow 2 0 (1 / 3), .add 3 1 2, .floor 4 3] st
    (fun _ => 0) (fun _ => False) hst (fun _ h => h.elim) ?_ ?_)
  · have h3 := h 3
    have h4 := h 4
    simp only [values, Instr.target, Instr.value, Function.update] at h3 h4
    norm_num at e2 e3 h3 h4 ⊢
    rw [e2, e3] at h3 h4
    exact ⟨h3, h4⟩
  · refine ⟨trivial, Or.inr (Or.inr (Or.inl ⟨?_, by norm_num, ?_, ?_⟩)),
        Or.inr (Or.inr (Or.inl ⟨?_, by norm_num, ?_, ?_⟩)), ?_, trivial, trivial⟩ <;> simp only [Instr.target, Instr.value, Function.update, Instr.Clean]
    · simp
    · simpa using hint
    · simpa [PowerAlone] using hal _
    · simp
    · simpa using hint
    · simpa [PowerAlone] using hal _
    · left
      norm_num at e2 e3 hc ⊢
      rwa [e2, e3]
  · have k1 : (1 / 2 : ℚ) * (Nat.log 2 2 + 2) ≤ 16 := by rw [hlog]; norm_num
    have k2 : (1 / 3 : ℚ) * (Nat.log 2 2 + 2) ≤ 16 := by rw [hlog]; norm_num
    refine ⟨trivial, trivial, Or.inr ⟨?_, 2, ?_, by norm_num, by norm_num, by norm_num, k1⟩,
      Or.inr (by norm_num), Or.inr ⟨?_, 2, ?_, by norm_num, by norm_num, by norm_num, k2⟩,
      Or.inr (by norm_num), ?_, trivial, trivial, trivial, trivial⟩ <;>
      simp only [Instr.target, Instr.value, Function.update, Instr.Sized, Instr.Fresh]
    · simp
    · simp
    · simp
    · simp
    · norm_num at e2 e3 hm ⊢
      rwa [e2, e3]

end Algebraics
