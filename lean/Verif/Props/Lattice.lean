import Verif.Spec.Lattice
import Verif.Lemmas.LatticeTerm

/-!
# C52, C59: lattice reduction
-/

namespace Algebraics

namespace Lattice

open Finset

variable {m : ℕ}

theorem real_eq (b : ℕ → Fin m → ℤ) (i : ℕ) : real (b i) = R b i := rfl

theorem gs_isGramSchmidt (n : ℕ) (b : ℕ → Fin m → ℤ) (g : ℕ → Fin m → ℚ)
    (h : ∀ i < n, g i = gs (R b) i) : IsGramSchmidt n b g := by
  refine ⟨fun i hi j hj => ?_, fun i hi => ?_⟩
  · rw [h i hi, h j (by omega)]; exact gs_orth _ _ _ (by omega)
  · rw [h i hi, real_eq, gs_eq, sub_sub_cancel]
    refine Submodule.sum_mem _ fun j hj => Submodule.smul_mem _ _ (Submodule.subset_span ⟨j, ?_, ?_⟩)
    · exact Finset.mem_range.mp hj
    · have := Finset.mem_range.mp hj
      exact h j (by omega)

theorem span_orth (S : Set (Fin m → ℚ)) (x : Fin m → ℚ) (h : ∀ v ∈ S, x ⬝ᵥ v = 0) (v : Fin m → ℚ)
    (hv : v ∈ Submodule.span ℚ S) : x ⬝ᵥ v = 0 := by
  induction hv using Submodule.span_induction with
  | mem v hv => exact h v hv
  | zero => exact dotProduct_zero _
  | add v w _ _ h1 h2 => rw [dotProduct_add, h1, h2, add_zero]
  | smul c v _ h1 => rw [dotProduct_smul, h1, smul_zero]

/-- **C52**: the orthogonalization is unique, so the specification pins down the result. -/
theorem C52_gram_schmidt_unique (n : ℕ) (b : ℕ → Fin m → ℤ) (g g' : ℕ → Fin m → ℚ)
    (h : IsGramSchmidt n b g) (h' : IsGramSchmidt n b g') : ∀ i < n, g i = g' i := by
  intro i
  induction i using Nat.strong_induction_on with
  | _ i ih =>
    intro hi
    have himg : g '' {j | j < i} = g' '' {j | j < i} :=
      Set.image_congr fun j hj => ih j hj (lt_trans hj hi)
    have h1 : g i - g' i ∈ Submodule.span ℚ (g '' {j | j < i}) := by
      have h2 := Submodule.sub_mem _ (himg ▸ h'.triangular i hi) (h.triangular i hi)
      rwa [sub_sub_sub_cancel_left] at h2
    have h3 : (g i - g' i) ⬝ᵥ (g i - g' i) = 0 := by
      refine span_orth _ _ ?_ _ h1
      rintro _ ⟨j, hj, rfl⟩
      rw [sub_dotProduct, h.orthogonal i hi j hj, ih j hj (lt_trans hj hi), h'.orthogonal i hi j hj,
        sub_zero]
    exact sub_eq_zero.mp (dotProduct_self_eq_zero.mp h3)

theorem isGramSchmidt_iff (n : ℕ) (b : ℕ → Fin m → ℤ) (g : ℕ → Fin m → ℚ) :
    IsGramSchmidt n b g ↔ ∀ i < n, g i = gs (R b) i :=
  ⟨fun h => C52_gram_schmidt_unique n b g _ h (gs_isGramSchmidt n b _ fun _ _ => rfl),
    gs_isGramSchmidt n b g⟩

/-- **C52**: `gram_schmidt` never panics, whatever the columns are (also when they are linearly
dependent), and returns the Gram-Schmidt orthogonalization. -/
theorem C52_gram_schmidt (n : ℕ) (b : ℕ → Fin m → ℤ) :
    ∃ g, gramSchmidt n b = some g ∧ IsGramSchmidt n b g := by
  obtain ⟨B, h1, h2⟩ := gramSchmidt_spec n b
  exact ⟨B, h1, gs_isGramSchmidt n b B h2⟩

theorem reduced_iff (n : ℕ) (δ : ℚ) (b : ℕ → Fin m → ℤ) : Reduced n δ b ↔ RedBelow δ b n := by
  constructor
  · rintro ⟨g, hg, h1, h2⟩
    rw [isGramSchmidt_iff] at hg
    refine ⟨fun i hi j hj => ?_, fun k hk => ?_⟩
    · have := h1 i hi j hj
      rw [hg j (by omega)] at this
      exact this
    · have := h2 k hk
      rw [hg k (by omega), hg (k + 1) hk] at this
      exact this
  · rintro ⟨h1, h2⟩
    exact ⟨gs (R b), gs_isGramSchmidt n b _ fun _ _ => rfl, h1, h2⟩

theorem new_good (b : ℕ → Fin m → ℤ) : (State.new b).Good := fun j hj => absurd hj (by simp [State.new])

theorem reduceWithDelta_ok {n : ℕ} {b b' : ℕ → Fin m → ℤ} {δ : ℚ} {fuel : ℕ}
    (h : reduceWithDelta n b δ fuel = .ok b') : ∃ t, loop n δ fuel 1 (State.new b) = .ok t ∧ t.basis = b' := by
  unfold reduceWithDelta at h
  cases hl : loop n δ fuel 1 (State.new b) with
  | error e => rw [hl] at h; cases h
  | ok t => rw [hl] at h; cases h; exact ⟨t, rfl, rfl⟩

/-- **C52**: the result generates the same lattice as the input: for every input, every constant and
every number of turns after which the loop ends. -/
theorem C52_same_lattice (n : ℕ) (b b' : ℕ → Fin m → ℤ) (δ : ℚ) (fuel : ℕ)
    (h : reduceWithDelta n b δ fuel = .ok b') : lattice n b' = lattice n b := by
  obtain ⟨t, h1, rfl⟩ := reduceWithDelta_ok h
  exact (loop_spec n δ fuel 1 _ t (new_good b) le_rfl (RedBelow.one _ _) h1).1

/-- the state after `t` turns of the loop (`none`: a panic, or the loop has ended before) -/
def turns (n : ℕ) (δ : ℚ) : ℕ → ℕ → State m → Option (ℕ × State m)
  | 0, k, s => some (k, s)
  | t + 1, k, s => if k < n then (step δ k s).bind fun r => turns n δ t r.1 r.2 else none

/-- `turns` is the history of the loop: the loop returns the state reached after some number of turns. -/
theorem loop_eq_turns (n : ℕ) (δ : ℚ) (fuel : ℕ) : ∀ (k : ℕ) (s u : State m),
    loop n δ fuel k s = .ok u ↔ ∃ t < fuel, ∃ k', n ≤ k' ∧ turns n δ t k s = some (k', u) := by
  induction fuel with
  | zero => intro k s u; simp [loop]
  | succ fuel ih =>
    intro k s u
    unfold loop
    by_cases hk : k < n
    · rw [if_pos hk]
      cases hst : step δ k s with
      | none =>
        constructor
        · intro h; cases h
        · rintro ⟨t, -, k', hk', h⟩
          cases t with
          | zero => simp only [turns, Option.some.injEq, Prod.mk.injEq] at h; omega
          | succ t => simp [turns, hk, hst] at h
      | some r =>
        obtain ⟨k1, s1⟩ := r
        simp only
        rw [ih]
        constructor
        · rintro ⟨t, ht, k', hk', h⟩
          exact ⟨t + 1, by omega, k', hk', by simp [turns, hk, hst, h]⟩
        · rintro ⟨t, ht, k', hk', h⟩
          cases t with
          | zero => simp only [turns, Option.some.injEq, Prod.mk.injEq] at h; omega
          | succ t =>
            simp only [turns, if_pos hk, hst, Option.bind_some] at h
            exact ⟨t, by omega, k', hk', h⟩
    · rw [if_neg hk]
      constructor
      · intro h
        cases h
        exact ⟨0, by omega, k, by omega, rfl⟩
      · rintro ⟨t, -, k', hk', h⟩
        cases t with
        | zero => simp only [turns, Option.some.injEq, Prod.mk.injEq] at h; rw [h.2]
        | succ t => simp [turns, hk] at h

/-- **C52**: after every single turn of the loop, the current columns generate the lattice of the input. -/
theorem C52_same_lattice_every_turn (n : ℕ) (b : ℕ → Fin m → ℤ) (δ : ℚ) (t k : ℕ) (s : State m)
    (h : turns n δ t 1 (State.new b) = some (k, s)) : lattice n s.basis = lattice n b := by
  have key : ∀ (t k : ℕ) (s : State m) (k' : ℕ) (s' : State m), s.Good → 1 ≤ k → RedBelow δ s.basis k →
      turns n δ t k s = some (k', s') → lattice n s'.basis = lattice n s.basis := by
    intro t
    induction t with
    | zero =>
      intro k s k' s' _ _ _ h
      simp only [turns, Option.some.injEq, Prod.mk.injEq] at h
      rw [h.2]
    | succ t ih =>
      intro k s k' s' hs hk hr h
      simp only [turns] at h
      by_cases hkn : k < n
      · rw [if_pos hkn] at h
        obtain ⟨k, rfl⟩ : ∃ l, k = l + 1 := ⟨k - 1, by omega⟩
        cases hst : step δ (k + 1) s with
        | none => rw [hst] at h; cases h
        | some r =>
          rw [hst] at h
          simp only [Option.bind_some] at h
          obtain ⟨h1, h2, h3, -, h5⟩ := step_inv n δ k s hs hkn hr r.1 r.2 hst
          exact (ih _ _ _ _ h1 h3 h5 h).trans h2
      · rw [if_neg hkn] at h; cases h
  exact key t 1 _ k s (new_good b) le_rfl (RedBelow.one _ _) h

/-- **C52**: the result is reduced, for every input and every constant. -/
theorem C52_reduced (n : ℕ) (b b' : ℕ → Fin m → ℤ) (δ : ℚ) (fuel : ℕ)
    (h : reduceWithDelta n b δ fuel = .ok b') : Reduced n δ b' := by
  obtain ⟨t, h1, rfl⟩ := reduceWithDelta_ok h
  rw [reduced_iff]
  exact (loop_spec n δ fuel 1 _ t (new_good b) le_rfl (RedBelow.one _ _) h1).2

/-- **C52**: the loop always ends, with a result or with a panic, for every input and every constant up
to 1. -/
theorem C52_terminates (n : ℕ) (b : ℕ → Fin m → ℤ) (δ : ℚ) (hδ : δ ≤ 1) :
    ∃ N, ∀ fuel, N ≤ fuel → reduceWithDelta n b δ fuel ≠ .error .fuel := by
  obtain ⟨N, hN⟩ := loop_ends n δ hδ _ _ 1 (State.new b) (new_good b) le_rfl rfl rfl
  refine ⟨N, fun fuel hf h => hN fuel hf ?_⟩
  unfold reduceWithDelta at h
  cases hl : loop n δ fuel 1 (State.new b) with
  | error e => rw [hl] at h; cases h; rfl
  | ok t => rw [hl] at h; cases h

/-- **C52**: linearly independent columns are reduced without a panic. -/
theorem C52_independent (n : ℕ) (b : ℕ → Fin m → ℤ) (δ : ℚ) (hδ : δ ≤ 1) (hb : Independent n b) :
    ∃ b' N, (∀ fuel, N ≤ fuel → reduceWithDelta n b δ fuel = .ok b') ∧
      lattice n b' = lattice n b ∧ Reduced n δ b' ∧ Independent n b' := by
  have mono : ∀ (fuel k : ℕ) (s t : State m), loop n δ fuel k s = .ok t →
      ∀ fuel', fuel ≤ fuel' → loop n δ fuel' k s = .ok t := by
    intro fuel k s t h fuel' hf
    rw [loop_eq_turns] at h ⊢
    obtain ⟨t', ht, rest⟩ := h
    exact ⟨t', by omega, rest⟩
  have hvol : vol (State.new b).basis n ≠ 0 := (independent_iff b n).mp hb
  obtain ⟨N, hN⟩ := loop_ends n δ hδ _ _ 1 (State.new b) (new_good b) le_rfl rfl rfl
  cases hl : loop n δ N 1 (State.new b) with
  | error e =>
    cases e with
    | fuel => exact absurd hl (hN N le_rfl)
    | panic =>
      exact absurd hl (loop_no_panic n δ N 1 _ (new_good b) le_rfl (RedBelow.one _ _) hvol)
  | ok t =>
    have h1 : ∀ fuel, N ≤ fuel → reduceWithDelta n b δ fuel = .ok t.basis := by
      intro fuel hf
      unfold reduceWithDelta
      rw [mono N 1 _ t hl fuel hf]
      rfl
    refine ⟨t.basis, N, h1, C52_same_lattice n b _ δ N (h1 N le_rfl), C52_reduced n b _ δ N (h1 N le_rfl), ?_⟩
    rw [independent_iff]
    have key : ∀ (fuel k : ℕ) (s t : State m), s.Good → 1 ≤ k → RedBelow δ s.basis k →
        loop n δ fuel k s = .ok t → vol t.basis n = vol s.basis n := by
      intro fuel
      induction fuel with
      | zero => intro k s t _ _ _ h; simp [loop] at h
      | succ fuel ih =>
        intro k s t hs hk hr h
        unfold loop at h
        by_cases hkn : k < n
        · rw [if_pos hkn] at h
          obtain ⟨k, rfl⟩ : ∃ l, k = l + 1 := ⟨k - 1, by omega⟩
          cases hst : step δ (k + 1) s with
          | none => rw [hst] at h; cases h
          | some r =>
            obtain ⟨k', u⟩ := r
            rw [hst] at h
            obtain ⟨h1, h2, h3, -, h5⟩ := step_inv n δ k s hs hkn hr k' u hst
            rw [ih k' u t h1 h3 h5 h]
            exact step_vol n δ k s hs hkn k' u hst
        · rw [if_neg hkn] at h; cases h; rfl
    rw [key N 1 _ t (new_good b) le_rfl (RedBelow.one _ _) hl]
    exact hvol

/-- **C52**, the limit: two or more linearly dependent columns are never reduced. For constants above
1/4 and up to 1 (the code uses 3/4) the function always panics with a division by zero. -/
theorem C52_dependent_panics (n : ℕ) (hn : 2 ≤ n) (b : ℕ → Fin m → ℤ) (δ : ℚ) (h0 : 1 / 4 < δ)
    (hδ : δ ≤ 1) (hb : ¬ Independent n b) :
    ∃ N, ∀ fuel, N ≤ fuel → reduceWithDelta n b δ fuel = .error .panic := by
  obtain ⟨N, hN⟩ := C52_terminates n b δ hδ
  refine ⟨N, fun fuel hf => ?_⟩
  cases h : reduceWithDelta n b δ fuel with
  | error e =>
    cases e with
    | fuel => exact absurd h (hN fuel hf)
    | panic => rfl
  | ok b' =>
    obtain ⟨t, h1, -⟩ := reduceWithDelta_ok h
    exact absurd ((independent_iff b n).mpr (loop_vol_zero n δ h0 fuel 1 _ t (new_good b) le_rfl
      (RedBelow.one _ _) (Or.inl hn) h1)) hb

/-- **C52**: `lll_reduce` on two or more columns returns exactly when they are linearly independent. -/
theorem C52_returns_iff (n : ℕ) (hn : 2 ≤ n) (b : ℕ → Fin m → ℤ) :
    (∃ fuel b', reduce n b fuel = .ok b') ↔ Independent n b := by
  constructor
  · rintro ⟨fuel, b', h⟩
    obtain ⟨t, h1, -⟩ := reduceWithDelta_ok h
    exact (independent_iff b n).mpr (loop_vol_zero n (3 / 4) (by norm_num) fuel 1 _ t (new_good b) le_rfl
      (RedBelow.one _ _) (Or.inl hn) h1)
  · intro h
    obtain ⟨b', N, h1, -⟩ := C52_independent n b (3 / 4) (by norm_num) h
    exact ⟨N, b', h1 N le_rfl⟩

/-! ### the first column is short -/

theorem lattice_last (b : ℕ → Fin m → ℤ) : ∀ (n : ℕ) (v : Fin m → ℤ), v ∈ lattice n b → v ≠ 0 →
    ∃ i < n, ∃ c : ℤ, c ≠ 0 ∧ ∃ z ∈ lattice i b, v = c • b i + z := by
  intro n
  induction n with
  | zero =>
    intro v hv h0
    simp [lattice] at hv
    exact absurd hv h0
  | succ n ih =>
    intro v hv h0
    have hset : b '' {i | i < n + 1} = insert (b n) (b '' {i | i < n}) := by
      rw [← Set.image_insert_eq]
      congr 1
      ext i
      simp only [Set.mem_ofPred_eq, Set.mem_insert_iff]
      omega
    unfold lattice at hv
    rw [hset, Submodule.mem_span_insert] at hv
    obtain ⟨c, z, hz, rfl⟩ := hv
    by_cases hc : c = 0
    · subst hc
      rw [zero_smul, zero_add] at h0 ⊢
      obtain ⟨i, hi, rest⟩ := ih z hz h0
      exact ⟨i, by omega, rest⟩
    · exact ⟨n, by omega, c, hc, z, hz, rfl⟩

/-- **C59**: the first column of a basis reduced with 3/4 is almost as short as possible: its square is at
most `2^(n-1)` times the square of any nonzero vector of the lattice. -/
theorem C59_reduced_short (n : ℕ) (b : ℕ → Fin m → ℤ) (h : Reduced n (3 / 4) b)
    (v : Fin m → ℤ) (hv : v ∈ lattice n b) (h0 : v ≠ 0) :
    b 0 ⬝ᵥ b 0 ≤ 2 ^ (n - 1) * (v ⬝ᵥ v) := by
  rw [reduced_iff] at h
  obtain ⟨i, hi, c, hc, z, hz, hvz⟩ := lattice_last b n v hv h0
  have hchain : ∀ i < n, gs (R b) 0 ⬝ᵥ gs (R b) 0 ≤ 2 ^ i * (gs (R b) i ⬝ᵥ gs (R b) i) := by
    intro i
    induction i with
    | zero => intro _; simp
    | succ i ih =>
      intro hi
      have h1 := ih (by omega)
      have h2 := h.lovasz i hi
      unfold Lovasz at h2
      have h3 := h.size (i + 1) hi i (by omega)
      have h4 : coef (R b) (i + 1) i ^ 2 ≤ 1 / 4 := by
        rw [← sq_abs]
        have := abs_nonneg (coef (R b) (i + 1) i)
        nlinarith
      have h5 : (1 / 2 : ℚ) * (gs (R b) i ⬝ᵥ gs (R b) i) ≤ gs (R b) (i + 1) ⬝ᵥ gs (R b) (i + 1) := by
        refine le_trans ?_ h2
        exact mul_le_mul_of_nonneg_right (by linarith) (dot_self_nonneg _)
      have h6 : (0 : ℚ) < 2 ^ i := by positivity
      rw [pow_succ]
      nlinarith
  have hz0 : ∀ z ∈ lattice i b, (fun y => (z y : ℚ)) ⬝ᵥ gs (R b) i = 0 := by
    intro z hz
    unfold lattice at hz
    induction hz using Submodule.span_induction with
    | mem z hz =>
      obtain ⟨j, hj, rfl⟩ := hz
      exact dot_gs_later (R b) j i hj
    | zero => simp [dotProduct]
    | add z w _ _ h1 h2 =>
      have : (fun y => (((z + w) y : ℤ) : ℚ)) = (fun y => (z y : ℚ)) + fun y => (w y : ℚ) := by
        funext y; simp
      rw [this, add_dotProduct, h1, h2, add_zero]
    | smul c z _ h1 =>
      have : (fun y => (((c • z) y : ℤ) : ℚ)) = (c : ℚ) • fun y => (z y : ℚ) := by
        funext y; simp
      rw [this, smul_dotProduct, h1, smul_zero]
  have hvR : (fun y => (v y : ℚ)) = (c : ℚ) • R b i + fun y => (z y : ℚ) := by
    funext y
    rw [hvz]
    simp [R, toRat]
  have hdot : (fun y => (v y : ℚ)) ⬝ᵥ gs (R b) i = c * (gs (R b) i ⬝ᵥ gs (R b) i) := by
    rw [hvR, add_dotProduct, smul_dotProduct, hz0 z hz, dot_gs_self, add_zero, smul_eq_mul]
  have hvv : (fun y => (v y : ℚ)) ⬝ᵥ (fun y => (v y : ℚ)) = ((v ⬝ᵥ v : ℤ) : ℚ) := by
    unfold dotProduct; push_cast; rfl
  have hb0 : gs (R b) 0 ⬝ᵥ gs (R b) 0 = ((b 0 ⬝ᵥ b 0 : ℤ) : ℚ) := by
    rw [← R_dot, gs_eq]
    simp
  have hcs : gs (R b) i ⬝ᵥ gs (R b) i ≤ ((v ⬝ᵥ v : ℤ) : ℚ) := by
    rw [← hvv]
    by_cases hg : gs (R b) i ⬝ᵥ gs (R b) i = 0
    · rw [hg]; exact dot_self_nonneg _
    · have hpos : 0 < gs (R b) i ⬝ᵥ gs (R b) i := lt_of_le_of_ne (dot_self_nonneg _) (Ne.symm hg)
      have h1 := dot_self_nonneg ((fun y => (v y : ℚ)) - (c : ℚ) • gs (R b) i)
      rw [sub_dotProduct, dotProduct_sub, dotProduct_sub, smul_dotProduct, dotProduct_smul, smul_dotProduct,
        dotProduct_smul, dotProduct_comm (gs (R b) i), hdot] at h1
      simp only [smul_eq_mul] at h1
      have h2 : (1 : ℚ) ≤ (c : ℚ) ^ 2 := by
        have h3 : 0 < c ^ 2 := by positivity
        have : (1 : ℤ) ≤ c ^ 2 := h3
        exact_mod_cast this
      nlinarith
  have hfin : ((b 0 ⬝ᵥ b 0 : ℤ) : ℚ) ≤ 2 ^ (n - 1) * ((v ⬝ᵥ v : ℤ) : ℚ) := by
    rw [← hb0]
    refine (hchain i hi).trans ?_
    have h1 : (2 : ℚ) ^ i ≤ 2 ^ (n - 1) := pow_le_pow_right₀ (by norm_num) (by omega)
    have h2 : (0 : ℚ) ≤ 2 ^ i := by positivity
    exact mul_le_mul h1 hcs (dot_self_nonneg _) (h2.trans h1)
  exact_mod_cast hfin

/-- **C59**: so the first column that `lll_reduce` returns is almost a shortest vector of the lattice of
the *input*. -/
theorem C59_lll_short (n : ℕ) (b b' : ℕ → Fin m → ℤ) (fuel : ℕ) (h : reduce n b fuel = .ok b')
    (v : Fin m → ℤ) (hv : v ∈ lattice n b) (h0 : v ≠ 0) :
    b' 0 ⬝ᵥ b' 0 ≤ 2 ^ (n - 1) * (v ⬝ᵥ v) :=
  C59_reduced_short n b' (C52_reduced n b b' _ fuel h) v
    (by rw [C52_same_lattice n b b' _ fuel h]; exact hv) h0

/-! ### examples -/

/-- the columns (201, 37) and (1648, 297), linearly independent. -/
def exampleBasis : ℕ → Fin 2 → ℤ := fun i => if i = 0 then ![201, 37] else ![1648, 297]

/-- the columns are reduced to (1, 32) and (40, 1). -/
example : (reduce 2 exampleBasis 20).map (fun b => (b 0 0, b 0 1, b 1 0, b 1 1)) = .ok (1, 32, 40, 1) := by
  decide +kernel

/-- the state after two turns of the loop exists. -/
example : (turns 2 (3 / 4) 2 1 (State.new exampleBasis)).isSome = true := by decide +kernel

/-- the columns (1, 2) and (2, 4), linearly dependent: a panic. -/
example : (reduce 2 (fun i => if i = 0 then ![1, 2] else (![2, 4] : Fin 2 → ℤ)) 20).map (fun _ => ()) =
    .error .panic := by
  decide +kernel

example : ¬ Independent 2 (fun i => if i = 0 then ![1, 2] else (![2, 4] : Fin 2 → ℤ)) := by
  unfold Independent
  rw [Fintype.linearIndependent_iff]
  intro h
  have := h ![2, -1] (by decide +kernel) 0
  simp at this

example : Independent 2 exampleBasis := by
  unfold Independent
  rw [Fintype.linearIndependent_iff]
  intro g hg i
  have h0 := congrFun hg 0
  have h1 := congrFun hg 1
  simp [Fin.sum_univ_two, exampleBasis] at h0 h1
  fin_cases i
  · show g 0 = 0; omega
  · show g 1 = 0; omega

end Lattice

end Algebraics
