import Verif.Lemmas.Lattice

/-!
The loop of `lll_reduce_with_delta` (`/repo/src/lattice.rs:112-165`).
-/

namespace Algebraics

namespace Lattice

open Finset

variable {m : ℕ}

/-- `b'` is `b` with a combination of the earlier columns added to column `k` -/
structure SameUpTo (k : ℕ) (b b' : ℕ → Fin m → ℤ) : Prop where
  other : ∀ l, l ≠ k → b' l = b l
  diff : b' k - b k ∈ Submodule.span ℤ (b '' {j | j < k})
  gs_eq : ∀ i, gs (R b') i = gs (R b) i

theorem SameUpTo.refl (k : ℕ) (b : ℕ → Fin m → ℤ) : SameUpTo k b b :=
  ⟨fun _ _ => rfl, by rw [sub_self]; exact Submodule.zero_mem _, fun _ => rfl⟩

theorem SameUpTo.image {k : ℕ} {b b' : ℕ → Fin m → ℤ} (h : SameUpTo k b b') :
    b' '' {j | j < k} = b '' {j | j < k} := by
  refine Set.image_congr fun j hj => h.other j ?_
  have : j < k := hj
  omega

theorem SameUpTo.symm {k : ℕ} {b b' : ℕ → Fin m → ℤ} (h : SameUpTo k b b') : SameUpTo k b' b :=
  ⟨fun l hl => (h.other l hl).symm, by
    rw [h.image, ← neg_sub]; exact Submodule.neg_mem _ h.diff, fun i => (h.gs_eq i).symm⟩

theorem SameUpTo.trans {k : ℕ} {b b' b'' : ℕ → Fin m → ℤ} (h : SameUpTo k b b') (h' : SameUpTo k b' b'') :
    SameUpTo k b b'' :=
  ⟨fun l hl => (h'.other l hl).trans (h.other l hl), by
    have := Submodule.add_mem _ h.diff (h.image ▸ h'.diff)
    rwa [add_comm, sub_add_sub_cancel] at this, fun i => (h'.gs_eq i).trans (h.gs_eq i)⟩

theorem SameUpTo.lattice_le {k n : ℕ} {b b' : ℕ → Fin m → ℤ} (h : SameUpTo k b b') (hk : k < n) :
    lattice n b' ≤ lattice n b := by
  unfold lattice
  rw [Submodule.span_le]
  rintro _ ⟨i, hi, rfl⟩
  by_cases hik : i = k
  · subst hik
    have h1 : b' i = (b' i - b i) + b i := by abel
    rw [h1]
    refine Submodule.add_mem _ ?_ (Submodule.subset_span ⟨i, hi, rfl⟩)
    refine Submodule.span_mono (Set.image_mono ?_) h.diff
    intro j hj
    have : j < i := hj
    show j < n
    omega
  · rw [h.other i hik]
    exact Submodule.subset_span ⟨i, hi, rfl⟩

theorem SameUpTo.lattice_eq {k n : ℕ} {b b' : ℕ → Fin m → ℤ} (h : SameUpTo k b b') (hk : k < n) :
    lattice n b' = lattice n b := le_antisymm (h.lattice_le hk) (h.symm.lattice_le hk)

theorem R_update (b : ℕ → Fin m → ℤ) (k j : ℕ) (r : ℤ) :
    R (Function.update b k fun y => b k y - b j y * r) =
      Function.update (R b) k (R b k - (r : ℚ) • R b j) := by
  funext i
  unfold R
  by_cases h : i = k
  · subst h
    rw [Function.update_self, Function.update_self]
    funext y
    simp [toRat, mul_comm]
  · rw [Function.update_of_ne h, Function.update_of_ne h]

theorem sameUpTo_update (b : ℕ → Fin m → ℤ) (k j : ℕ) (hj : j < k) (r : ℤ) :
    SameUpTo k b (Function.update b k fun y => b k y - b j y * r) := by
  refine ⟨fun l hl => Function.update_of_ne hl _ _, ?_, fun i => ?_⟩
  · rw [Function.update_self]
    have : (fun y => b k y - b j y * r) - b k = (-r) • b j := by
      funext y; simp; ring
    rw [this]
    exact Submodule.smul_mem _ _ (Submodule.subset_span ⟨j, hj, rfl⟩)
  · rw [R_update]; exact gs_reduce _ k j hj _ i

/-- what one step of the size reduction does -/
theorem reduceStep_spec (k : ℕ) (s : State m) (hs : s.Good) (j : ℕ) (hj : j < k) :
    (gs (R s.basis) j ⬝ᵥ gs (R s.basis) j = 0 ∧ reduceStep k s j = none) ∨
    (gs (R s.basis) j ⬝ᵥ gs (R s.basis) j ≠ 0 ∧ ∃ t, reduceStep k s j = some t ∧ t.Good ∧
      SameUpTo k s.basis t.basis ∧ |coef (R t.basis) k j| ≤ 1 / 2 ∧
      ∀ l, j < l → coef (R t.basis) k l = coef (R s.basis) k l) := by
  rcases mu_spec s hs k j with ⟨h1, h2⟩ | ⟨h1, t, h2, h3, h4⟩
  · left
    refine ⟨h1, ?_⟩
    unfold reduceStep
    rw [h2]
    rfl
  · right
    refine ⟨h1, ?_⟩
    unfold reduceStep
    rw [h2]
    simp only [Option.bind_eq_bind, Option.bind_some]
    by_cases hq : 1 / 2 < |coef (R s.basis) k j|
    · rw [if_pos hq]
      have hb : R (Function.update t.basis k fun y =>
          t.basis k y - t.basis j y * roundEven (coef (R s.basis) k j)) =
          Function.update (R s.basis) k (R s.basis k -
            (roundEven (coef (R s.basis) k j) : ℚ) • R s.basis j) := by
        rw [h3]; exact R_update _ _ _ _
      refine ⟨_, rfl, ?_, ?_, ?_, ?_⟩
      · intro i hi
        simp only [State.invalidate] at hi ⊢
        rw [h4 i (by omega), h3, R_update]
        refine gs_congr _ _ _ fun l hl => ?_
        rw [Function.update_of_ne (by omega)]
      · simp only [State.invalidate]
        rw [h3]
        exact sameUpTo_update _ _ _ hj _
      · simp only [State.invalidate]
        rw [hb, coef_reduce _ _ _ hj, if_pos rfl, coef_self _ _ h1, mul_one]
        exact roundEven_spec _
      · intro l hl
        simp only [State.invalidate]
        rw [hb, coef_reduce _ _ _ hj, if_pos rfl, coef_later _ _ _ hl, mul_zero, sub_zero]
    · rw [if_neg hq]
      refine ⟨t, rfl, h4, by rw [h3]; exact SameUpTo.refl _ _, by rw [h3]; linarith, fun l _ => by rw [h3]⟩

/-- what the size reduction does -/
theorem reduceFold_spec (k : ℕ) : ∀ (J : ℕ) (s : State m), J ≤ k → s.Good →
    (∀ l, J ≤ l → l < k → |coef (R s.basis) k l| ≤ 1 / 2) →
    ((∃ j < J, gs (R s.basis) j ⬝ᵥ gs (R s.basis) j = 0) ∧
      (List.range J).reverse.foldlM (reduceStep k) s = none) ∨
    ((∀ j < J, gs (R s.basis) j ⬝ᵥ gs (R s.basis) j ≠ 0) ∧
      ∃ t, (List.range J).reverse.foldlM (reduceStep k) s = some t ∧ t.Good ∧
      SameUpTo k s.basis t.basis ∧ ∀ l < k, |coef (R t.basis) k l| ≤ 1 / 2) := by
  intro J
  induction J with
  | zero =>
    intro s _ hs hl
    right
    exact ⟨fun j hj => by omega, s, rfl, hs, SameUpTo.refl _ _, fun l h => hl l (Nat.zero_le _) h⟩
  | succ J ih =>
    intro s hJ hs hl
    rw [List.range_succ, List.reverse_append, List.reverse_singleton, List.singleton_append,
      List.foldlM_cons]
    rcases reduceStep_spec k s hs J (by omega) with ⟨h1, h2⟩ | ⟨h1, t, h2, h3, h4, h5, h6⟩
    · left
      exact ⟨⟨J, by omega, h1⟩, by rw [h2]; rfl⟩
    · rw [h2]
      simp only [Option.bind_eq_bind, Option.bind_some]
      rcases ih t (by omega) h3 (by
        intro l hl1 hl2
        by_cases hlJ : l = J
        · rw [hlJ]; exact h5
        · rw [h6 l (by omega)]; exact hl l (by omega) hl2) with ⟨⟨j, hj1, hj2⟩, h7⟩ | ⟨h7, u, h8, h9, h10, h11⟩
      · left
        refine ⟨⟨j, by omega, ?_⟩, h7⟩
        rw [← h4.gs_eq j]; exact hj2
      · right
        refine ⟨fun j hj => ?_, u, h8, h9, h4.trans h10, h11⟩
        by_cases hjJ : j = J
        · rw [hjJ]; exact h1
        · rw [← h4.gs_eq j]; exact h7 j (by omega)

/-- swapped neighbours -/
def swapped (b : ℕ → Fin m → ℤ) (k : ℕ) : ℕ → Fin m → ℤ :=
  Function.update (Function.update b (k + 1) (b k)) k (b (k + 1))

/-- the condition that the loop tests -/
def Lovasz (δ : ℚ) (b : ℕ → Fin m → ℚ) (k : ℕ) : Prop :=
  (δ - coef b (k + 1) k ^ 2) * (gs b k ⬝ᵥ gs b k) ≤ gs b (k + 1) ⬝ᵥ gs b (k + 1)

/-- one turn of the loop -/
theorem step_spec (δ : ℚ) (k : ℕ) (s : State m) (hs : s.Good) :
    ((∃ j < k + 1, gs (R s.basis) j ⬝ᵥ gs (R s.basis) j = 0) ∧ step δ (k + 1) s = none) ∨
    ((∀ j < k + 1, gs (R s.basis) j ⬝ᵥ gs (R s.basis) j ≠ 0) ∧
      ∃ b t, SameUpTo (k + 1) s.basis b ∧ (∀ l < k + 1, |coef (R b) (k + 1) l| ≤ 1 / 2) ∧ t.Good ∧
      ((Lovasz δ (R b) k ∧ t.basis = b ∧ step δ (k + 1) s = some (k + 2, t)) ∨
        (¬ Lovasz δ (R b) k ∧ t.basis = swapped b k ∧ step δ (k + 1) s = some (max 1 k, t)))) := by
  rcases reduceFold_spec (k + 1) (k + 1) s le_rfl hs (fun l h1 h2 => by omega) with
    ⟨h1, h2⟩ | ⟨h1, t, h2, h3, h4, h5⟩
  · left
    refine ⟨h1, ?_⟩
    unfold step
    rw [h2]
    rfl
  · right
    refine ⟨h1, t.basis, ?_⟩
    rcases mu_spec t h3 (k + 1) k with ⟨h6, -⟩ | ⟨-, u, h6, h7, h8⟩
    · rw [h4.gs_eq] at h6
      exact absurd h6 (h1 k (by omega))
    obtain ⟨v, h9, h10, h11, h12⟩ := calculate_spec u h8 k
    obtain ⟨w, h13, h14, h15, h16⟩ := calculate_spec v h11 (k + 1)
    have hwb : w.basis = t.basis := by rw [h14, h10, h7]
    have hstep : step δ (k + 1) s = if (δ - coef (R t.basis) (k + 1) k * coef (R t.basis) (k + 1) k) *
        (gs (R t.basis) k ⬝ᵥ gs (R t.basis) k) ≤ gs (R t.basis) (k + 1) ⬝ᵥ gs (R t.basis) (k + 1)
        then some (k + 2, w) else some (max 1 k, { (w.invalidate (k + 1)).invalidate k with
          basis := swapped w.basis k }) := by
      unfold step
      rw [h2]
      simp only [Option.bind_eq_bind, Option.bind_some, Nat.add_sub_cancel]
      rw [h6]
      simp only [Option.bind_some]
      rw [h9]
      simp only [Option.bind_some]
      rw [h13]
      simp only [Option.bind_some, inner_eq]
      rw [h11 k h12, h15 (k + 1) h16, hwb, h10, h7, ← hwb]
      rfl
    by_cases hl : Lovasz δ (R t.basis) k
    · refine ⟨w, h4, h5, h15, Or.inl ⟨hl, hwb, ?_⟩⟩
      unfold Lovasz at hl
      rw [hstep, if_pos (by rw [← sq]; exact hl)]
    · refine ⟨{ (w.invalidate (k + 1)).invalidate k with basis := swapped w.basis k }, h4, h5, ?_,
        Or.inr ⟨hl, by rw [hwb], ?_⟩⟩
      · intro i hi
        simp only [State.invalidate] at hi ⊢
        rw [h15 i (by omega)]
        refine gs_congr _ _ _ fun l hl => ?_
        unfold R swapped
        rw [Function.update_of_ne (by omega), Function.update_of_ne (by omega)]
      · unfold Lovasz at hl
        rw [hstep, if_neg (by rw [← sq]; exact hl)]

theorem swapped_lattice (b : ℕ → Fin m → ℤ) (k n : ℕ) (hk : k + 1 < n) :
    lattice n (swapped b k) = lattice n b := by
  unfold lattice
  congr 1
  ext v
  constructor
  · rintro ⟨i, hi, rfl⟩
    have hi : i < n := hi
    unfold swapped
    by_cases h1 : i = k
    · rw [h1, Function.update_self]; exact ⟨k + 1, hk, rfl⟩
    · rw [Function.update_of_ne h1]
      by_cases h2 : i = k + 1
      · rw [h2, Function.update_self]; exact ⟨k, by show k < n; omega, rfl⟩
      · rw [Function.update_of_ne h2]; exact ⟨i, hi, rfl⟩
  · rintro ⟨i, hi, rfl⟩
    have hi : i < n := hi
    unfold swapped
    by_cases h1 : i = k
    · refine ⟨k + 1, hk, ?_⟩
      rw [Function.update_of_ne (by omega), Function.update_self, h1]
    · by_cases h2 : i = k + 1
      · refine ⟨k, by show k < n; omega, ?_⟩
        rw [Function.update_self, h2]
      · refine ⟨i, hi, ?_⟩
        rw [Function.update_of_ne h1, Function.update_of_ne h2]

/-- columns below `k` are reduced -/
structure RedBelow (δ : ℚ) (b : ℕ → Fin m → ℤ) (k : ℕ) : Prop where
  size : ∀ i < k, ∀ j < i, |coef (R b) i j| ≤ 1 / 2
  lovasz : ∀ i, i + 1 < k → Lovasz δ (R b) i

theorem coef_congr (b b' : ℕ → Fin m → ℚ) (i j : ℕ) (hi : b i = b' i) (h : ∀ l ≤ j, b l = b' l) :
    coef b i j = coef b' i j := by
  unfold coef
  rw [gs_congr b b' j h, hi]

theorem RedBelow.congr {δ : ℚ} {b b' : ℕ → Fin m → ℤ} {k : ℕ} (h : RedBelow δ b k)
    (hb : ∀ i < k, b' i = b i) : RedBelow δ b' k := by
  have hR : ∀ i < k, R b' i = R b i := fun i hi => by unfold R; rw [hb i hi]
  refine ⟨fun i hi j hj => ?_, fun i hi => ?_⟩
  · rw [coef_congr (R b') (R b) i j (hR i hi) fun l hl => hR l (by omega)]
    exact h.size i hi j hj
  · have := h.lovasz i hi
    unfold Lovasz at this ⊢
    rw [coef_congr (R b') (R b) (i + 1) i (hR _ hi) fun l hl => hR l (by omega),
      gs_congr (R b') (R b) i fun l hl => hR l (by omega),
      gs_congr (R b') (R b) (i + 1) fun l hl => hR l (by omega)]
    exact this

theorem RedBelow.mono {δ : ℚ} {b : ℕ → Fin m → ℤ} {k l : ℕ} (h : RedBelow δ b k) (hl : l ≤ k) :
    RedBelow δ b l :=
  ⟨fun i hi => h.size i (by omega), fun i hi => h.lovasz i (by omega)⟩

theorem RedBelow.one (δ : ℚ) (b : ℕ → Fin m → ℤ) : RedBelow δ b 1 :=
  ⟨fun i hi j hj => by omega, fun i hi => by omega⟩

/-- one turn keeps the lattice and what is reduced so far -/
theorem step_inv (n : ℕ) (δ : ℚ) (k : ℕ) (s : State m) (hs : s.Good) (hk : k + 1 < n)
    (hr : RedBelow δ s.basis (k + 1)) (k' : ℕ) (t : State m) (h : step δ (k + 1) s = some (k', t)) :
    t.Good ∧ lattice n t.basis = lattice n s.basis ∧ 1 ≤ k' ∧ k' ≤ n ∧ RedBelow δ t.basis k' := by
  rcases step_spec δ k s hs with ⟨-, h2⟩ | ⟨h1, b, u, h2, h3, h4, h5⟩
  · rw [h] at h2; cases h2
  · have hrb : RedBelow δ b (k + 1) := hr.congr fun i hi => h2.other i (by omega)
    rcases h5 with ⟨h6, h7, h8⟩ | ⟨h6, h7, h8⟩
    · rw [h] at h8
      cases h8
      refine ⟨h4, by rw [h7]; exact h2.lattice_eq hk, by omega, by omega, ?_⟩
      rw [h7]
      refine ⟨fun i hi j hj => ?_, fun i hi => ?_⟩
      · by_cases hik : i = k + 1
        · rw [hik]; exact h3 j (by omega)
        · exact hrb.size i (by omega) j hj
      · by_cases hik : i = k
        · rw [hik]; exact h6
        · exact hrb.lovasz i (by omega)
    · rw [h] at h8
      cases h8
      refine ⟨h4, by rw [h7, swapped_lattice b k n hk]; exact h2.lattice_eq hk, le_max_left _ _, ?_, ?_⟩
      · rw [max_le_iff]; omega
      · rw [h7]
        rcases Nat.eq_zero_or_pos k with hk0 | hk0
        · subst hk0; exact RedBelow.one _ _
        · rw [max_eq_right hk0]
          refine (hrb.mono (Nat.le_succ k)).congr fun i hi => ?_
          unfold swapped
          rw [Function.update_of_ne (by omega), Function.update_of_ne (by omega)]

theorem loop_spec (n : ℕ) (δ : ℚ) : ∀ (fuel k : ℕ) (s t : State m), s.Good → 1 ≤ k →
    RedBelow δ s.basis k → loop n δ fuel k s = .ok t →
    lattice n t.basis = lattice n s.basis ∧ RedBelow δ t.basis n := by
  intro fuel
  induction fuel with
  | zero => intro k s t _ _ _ h; simp [loop] at h
  | succ fuel ih =>
    intro k s t hs hk hr h
    unfold loop at h
    by_cases hkn : k < n
    · rw [if_pos hkn] at h
      obtain ⟨k, rfl⟩ : ∃ l, k = l + 1 := ⟨k - 1, by omega⟩
      cases hst : step δ (k + 1) s with
      | none => rw [hst] at h; cases h
      | some r =>
        obtain ⟨k', u⟩ := r
        rw [hst] at h
        obtain ⟨h1, h2, h3, -, h5⟩ := step_inv n δ k s hs hkn hr k' u hst
        obtain ⟨h6, h7⟩ := ih k' u t h1 h3 h5 h
        exact ⟨h6.trans h2, h7⟩
    · rw [if_neg hkn] at h
      cases h
      exact ⟨rfl, hr.mono (by omega)⟩

end Lattice

end Algebraics
