import Verif.Spec.Sturm
import Mathlib.Algebra.Polynomial.Derivative
import Mathlib.Topology.Algebra.Polynomial
import Mathlib.Topology.LocallyConstant.Basic
import Mathlib.Topology.Instances.Real.Lemmas
import Mathlib.Analysis.Normed.Field.Basic
import Mathlib.Tactic

/-!
# Sturm's theorem
-/

set_option linter.unusedSectionVars false

namespace Algebraics.Sturm

open Polynomial Filter Topology

/-! ### sign changes -/

theorem adjacentSignChanges_cast (l : List ℚ) :
    adjacentSignChanges (l.map fun x : ℚ => (x : ℝ)) = adjacentSignChanges l := by
  induction l with
  | nil => rfl
  | cons a l ih =>
    cases l with
    | nil => rfl
    | cons b l =>
      simp only [List.map_cons, adjacentSignChanges] at ih ⊢
      rw [ih]
      congr 1
      have : ((a:ℝ) * b < 0) = (a * b < 0) := by
        apply propext; exact_mod_cast Iff.rfl
      simp only [this]

theorem signChanges_cast (l : List ℚ) :
    signChanges (l.map fun x : ℚ => (x : ℝ)) = signChanges l := by
  unfold signChanges
  rw [← adjacentSignChanges_cast, List.filter_map]
  congr 2
  apply List.filter_congr
  intro x _
  simp

section
variable {α : Type} [Field α] [LinearOrder α] [IsStrictOrderedRing α]

theorem signChanges_zero (l : List α) : signChanges (0 :: l) = signChanges l := by
  simp [signChanges]

theorem signChanges_single (a : α) : signChanges [a] = 0 := by
  by_cases h : a = 0 <;> simp [signChanges, adjacentSignChanges, h]

theorem signChanges_cons_cons (a b : α) (ha : a ≠ 0) (hb : b ≠ 0) (l : List α) :
    signChanges (a :: b :: l) = (if a * b < 0 then 1 else 0) + signChanges (b :: l) := by
  simp [signChanges, adjacentSignChanges, ha, hb]

theorem signChanges_cons_zero (a : α) (l : List α) :
    signChanges (a :: 0 :: l) = signChanges (a :: l) := by
  by_cases ha : a = 0 <;> simp [signChanges, ha]

theorem signChanges_append_zero (l : List α) : signChanges (l ++ [0]) = signChanges l := by
  simp [signChanges]

/-- a middle element between opposite signs does not matter -/
theorem signChanges_mid (a b c : α) (h : a * c < 0) (l : List α) :
    signChanges (a :: b :: c :: l) = 1 + signChanges (c :: l) := by
  have ha : a ≠ 0 := by rintro rfl; simp at h
  have hc : c ≠ 0 := by rintro rfl; simp at h
  by_cases hb : b = 0
  · rw [hb, signChanges_cons_zero, signChanges_cons_cons a c ha hc, if_pos h]
  · rw [signChanges_cons_cons a b ha hb, signChanges_cons_cons b c hb hc]
    by_cases h1 : a * b < 0
    · have h2 : ¬ b * c < 0 := by
        rw [mul_neg_iff] at h h1 ⊢
        rcases h with h | h <;> rcases h1 with h1 | h1 <;> intro h3 <;> rcases h3 with h3 | h3 <;>
          linarith [h.1, h.2, h1.1, h1.2, h3.1, h3.2]
      rw [if_pos h1, if_neg h2, zero_add]
    · have h2 : b * c < 0 := by
        have h1' : 0 < a * b := lt_of_le_of_ne (not_lt.mp h1) (mul_ne_zero ha hb).symm
        rw [mul_neg_iff] at h ⊢
        rw [mul_pos_iff] at h1'
        rcases h with h | h <;> rcases h1' with h1 | h1
        · exact Or.inl ⟨h1.2, h.2⟩
        · linarith [h.1, h1.1]
        · linarith [h.1, h1.1]
        · exact Or.inr ⟨h1.2, h.2⟩
      rw [if_neg h1, if_pos h2, zero_add]

/-- multiplying everything by a nonzero number changes nothing -/
theorem adjacentSignChanges_mul (g : α) (hg : g ≠ 0) (l : List α) :
    adjacentSignChanges (l.map (g * ·)) = adjacentSignChanges l := by
  induction l with
  | nil => rfl
  | cons a l ih =>
    cases l with
    | nil => rfl
    | cons b l =>
      simp only [List.map_cons, adjacentSignChanges] at ih ⊢
      rw [ih]
      have : g * a * (g * b) < 0 ↔ a * b < 0 := by
        have h2 : 0 < g * g := mul_self_pos.mpr hg
        rw [show g * a * (g * b) = (g * g) * (a * b) by ring]
        constructor
        · intro h; by_contra hc; push Not at hc
          have := mul_nonneg h2.le hc; linarith
        · intro h; exact mul_neg_of_pos_of_neg h2 h
      simp only [this]

theorem signChanges_mul (g : α) (hg : g ≠ 0) (l : List α) :
    signChanges (l.map (g * ·)) = signChanges l := by
  unfold signChanges
  rw [← adjacentSignChanges_mul g hg (l.filter _), List.filter_map]
  congr 2
  apply List.filter_congr
  intro x _
  simp [hg]

end

/-! ### behaviour near a point -/

/-- what a chain must satisfy at a point -/
def GoodAt (x₀ : ℝ) : List ℝ[X] → Prop
  | [] => False
  | [p] => p.eval x₀ ≠ 0
  | p :: q :: rest =>
    (q.eval x₀ = 0 → ∃ r rest', rest = r :: rest' ∧ p.eval x₀ * r.eval x₀ < 0) ∧
      GoodAt x₀ (q :: rest)

theorem eventually_sign (p : ℝ[X]) (x₀ : ℝ) (h : p.eval x₀ ≠ 0) :
    ∀ᶠ x in 𝓝 x₀, 0 < p.eval x * p.eval x₀ := by
  have hc : ContinuousAt (fun x => p.eval x * p.eval x₀) x₀ :=
    (p.continuous.continuousAt).mul continuousAt_const
  exact hc.eventually (lt_mem_nhds (mul_self_pos.mpr h))

theorem mul_neg_of_same {a b a' b' : ℝ} (ha : 0 < a' * a) (hb : 0 < b' * b) :
    a' * b' < 0 ↔ a * b < 0 := by
  have h : 0 < (a' * a) * (b' * b) := mul_pos ha hb
  rw [show (a' * a) * (b' * b) = (a' * b') * (a * b) by ring] at h
  constructor
  · intro h1; by_contra h2; push Not at h2
    have := mul_nonpos_of_nonpos_of_nonneg h1.le h2; linarith
  · intro h1; by_contra h2; push Not at h2
    have := mul_nonpos_of_nonneg_of_nonpos h2 h1.le; linarith

theorem eventually_signChanges (x₀ : ℝ) : ∀ (n : ℕ) (l : List ℝ[X]), l.length ≤ n → GoodAt x₀ l →
    (∀ p l', l = p :: l' → p.eval x₀ ≠ 0) →
    ∀ᶠ x in 𝓝 x₀, signChanges (l.map (eval x)) = signChanges (l.map (eval x₀)) := by
  intro n
  induction n with
  | zero =>
    intro l hl hg
    have : l = [] := List.length_eq_zero_iff.mp (by omega)
    subst this; exact absurd hg id
  | succ n ih =>
    intro l hl hg h0
    match l, hl, hg, h0 with
    | [p], _, _, _ =>
      exact Eventually.of_forall fun x => by simp only [List.map_cons, List.map_nil, signChanges_single]
    | p :: q :: rest, hl, hg, h0 =>
      have hp := h0 p _ rfl
      have ep := eventually_sign p x₀ hp
      obtain ⟨hg1, hg2⟩ := hg
      by_cases hq : q.eval x₀ = 0
      · obtain ⟨r, rest', rfl, hr⟩ := hg1 hq
        have hr0 : r.eval x₀ ≠ 0 := by intro h; rw [h, mul_zero] at hr; exact lt_irrefl _ hr
        have hg3 : GoodAt x₀ (r :: rest') := hg2.2
        have er := eventually_sign r x₀ hr0
        have eI := ih (r :: rest') (by simp at hl ⊢; omega) hg3 (by
          intro p' l' h; cases h; exact hr0)
        filter_upwards [ep, er, eI] with x h1 h2 h3
        have h4 : p.eval x * r.eval x < 0 := (mul_neg_of_same h1 h2).mpr hr
        simp only [List.map_cons] at h3 ⊢
        rw [signChanges_mid _ _ _ h4, signChanges_mid _ _ _ hr, h3]
      · have eq' := eventually_sign q x₀ hq
        have eI := ih (q :: rest) (by simp at hl ⊢; omega) hg2 (by
          intro p' l' h; cases h; exact hq)
        filter_upwards [ep, eq', eI] with x h1 h2 h3
        have hpx : p.eval x ≠ 0 := by intro h; rw [h, zero_mul] at h1; exact lt_irrefl _ h1
        have hqx : q.eval x ≠ 0 := by intro h; rw [h, zero_mul] at h2; exact lt_irrefl _ h2
        simp only [List.map_cons] at h3 ⊢
        rw [signChanges_cons_cons _ _ hpx hqx, signChanges_cons_cons _ _ hp hq, h3]
        simp only [mul_neg_of_same h1 h2]

theorem GoodAt.second_ne {x₀ : ℝ} {p q : ℝ[X]} {rest : List ℝ[X]} (h : GoodAt x₀ (p :: q :: rest))
    (hp : p.eval x₀ = 0) : q.eval x₀ ≠ 0 := by
  intro hq
  obtain ⟨r, rest', -, hr⟩ := h.1 hq
  rw [hp, zero_mul] at hr; exact lt_irrefl _ hr

/-- `p` and `q` have opposite signs just before and equal signs just after every root of `p` -/
def Crosses (p q : ℝ[X]) : Prop :=
  ∀ x₀, p.eval x₀ = 0 → (∀ᶠ x in 𝓝[<] x₀, p.eval x * q.eval x < 0) ∧
    (∀ᶠ x in 𝓝[>] x₀, 0 < p.eval x * q.eval x)

/-- number of distinct roots up to a point -/
noncomputable def rootsUpTo (p : ℝ[X]) (x : ℝ) : ℕ := (p.roots.toFinset.filter (· ≤ x)).card

theorem eventually_filter (s : Finset ℝ) (x₀ : ℝ) :
    ∀ᶠ x in 𝓝 x₀, ∀ r ∈ s, r ≠ x₀ → (r ≤ x ↔ r ≤ x₀) := by
  rw [Filter.eventually_all_finset]
  intro r _
  by_cases h : r = x₀
  · exact Eventually.of_forall fun x hx => absurd h hx
  · rcases lt_or_gt_of_ne h with h1 | h1
    · filter_upwards [lt_mem_nhds h1] with x hx _
      exact ⟨fun _ => h1.le, fun _ => hx.le⟩
    · filter_upwards [gt_mem_nhds h1] with x hx _
      exact ⟨fun h => by linarith, fun h => by linarith⟩

theorem locally_constant (p q : ℝ[X]) (rest : List ℝ[X]) (hp : p ≠ 0)
    (hg : ∀ x, GoodAt x (p :: q :: rest)) (hc : Crosses p q) (x₀ : ℝ) :
    ∀ᶠ x in 𝓝 x₀, signChanges ((p :: q :: rest).map (eval x)) + rootsUpTo p x =
      signChanges ((p :: q :: rest).map (eval x₀)) + rootsUpTo p x₀ := by
  have hf := eventually_filter p.roots.toFinset x₀
  by_cases h0 : p.eval x₀ = 0
  · have hq := (hg x₀).second_ne h0
    have e1 := eventually_signChanges x₀ _ (q :: rest) le_rfl (hg x₀).2 (by
      intro p' l' h; cases h; exact hq)
    have e2 := eventually_sign q x₀ hq
    obtain ⟨hl, hr⟩ := hc x₀ h0
    rw [eventually_nhdsWithin_iff] at hl hr
    have hroot : x₀ ∈ p.roots.toFinset := by simp [hp, h0]
    have hx0 : signChanges ((p :: q :: rest).map (eval x₀)) =
        signChanges ((q :: rest).map (eval x₀)) := by
      simp only [List.map_cons, h0, signChanges_zero]
    filter_upwards [hf, e1, e2, hl, hr] with x h1 h2 h3 h4 h5
    have hqx : q.eval x ≠ 0 := by intro h; rw [h, zero_mul] at h3; exact lt_irrefl _ h3
    rw [hx0, ← h2]
    rcases lt_trichotomy x x₀ with hx | hx | hx
    · have h6 := h4 hx
      have hpx : p.eval x ≠ 0 := by intro h; rw [h, zero_mul] at h6; exact lt_irrefl _ h6
      have : signChanges ((p :: q :: rest).map (eval x)) =
          1 + signChanges ((q :: rest).map (eval x)) := by
        simp only [List.map_cons]
        rw [signChanges_cons_cons _ _ hpx hqx, if_pos h6]
      rw [this]
      have hcard : rootsUpTo p x₀ = rootsUpTo p x + 1 := by
        unfold rootsUpTo
        have : p.roots.toFinset.filter (· ≤ x₀) =
            insert x₀ (p.roots.toFinset.filter (· ≤ x)) := by
          ext r
          simp only [Finset.mem_filter, Finset.mem_insert]
          constructor
          · rintro ⟨hr, hle⟩
            by_cases hrx : r = x₀
            · exact Or.inl hrx
            · exact Or.inr ⟨hr, (h1 r hr hrx).mpr hle⟩
          · rintro (rfl | ⟨hr, hle⟩)
            · exact ⟨hroot, le_rfl⟩
            · exact ⟨hr, hle.trans hx.le⟩
        rw [this, Finset.card_insert_of_notMem]
        simp only [Finset.mem_filter, not_and, not_le]
        exact fun _ => hx
      omega
    · subst hx; rw [hx0]
    · have h6 := h5 hx
      have hpx : p.eval x ≠ 0 := by intro h; rw [h, zero_mul] at h6; exact lt_irrefl _ h6
      have : signChanges ((p :: q :: rest).map (eval x)) =
          signChanges ((q :: rest).map (eval x)) := by
        simp only [List.map_cons]
        rw [signChanges_cons_cons _ _ hpx hqx, if_neg (by linarith), zero_add]
      rw [this]
      have hcard : rootsUpTo p x₀ = rootsUpTo p x := by
        unfold rootsUpTo
        congr 1
        apply Finset.filter_congr
        intro r hr
        by_cases hrx : r = x₀
        · rw [hrx]; exact ⟨fun _ => hx.le, fun _ => le_rfl⟩
        · exact (h1 r hr hrx).symm
      omega
  · have e1 := eventually_signChanges x₀ _ (p :: q :: rest) le_rfl (hg x₀) (by
      intro p' l' h; cases h; exact h0)
    filter_upwards [hf, e1] with x h1 h2
    rw [h2]
    congr 1
    unfold rootsUpTo
    congr 1
    apply Finset.filter_congr
    intro r hr
    apply h1 r hr
    rintro rfl
    simp only [Multiset.mem_toFinset, mem_roots', IsRoot.def] at hr
    exact h0 hr.2

theorem constant (p q : ℝ[X]) (rest : List ℝ[X]) (hp : p ≠ 0)
    (hg : ∀ x, GoodAt x (p :: q :: rest)) (hc : Crosses p q) (a b : ℝ) :
    signChanges ((p :: q :: rest).map (eval a)) + rootsUpTo p a =
      signChanges ((p :: q :: rest).map (eval b)) + rootsUpTo p b := by
  have : IsLocallyConstant fun x => signChanges ((p :: q :: rest).map (eval x)) + rootsUpTo p x := by
    rw [IsLocallyConstant.iff_eventually_eq]
    exact locally_constant p q rest hp hg hc
  exact this.apply_eq_of_preconnectedSpace a b

/-! ### remainder sequences -/

/-- `p` and `p'` cross, also after cancelling a common factor -/
theorem crosses_derivative (p g f h : ℝ[X]) (hp : p ≠ 0) (c : ℝ) (hc : 0 < c) (h1 : p = g * f)
    (h2 : C c * derivative p = g * h) : Crosses f h := by
  intro x₀ hx
  have hroot : p.eval x₀ = 0 := by rw [h1, eval_mul, hx, mul_zero]
  set k := p.rootMultiplicity x₀ with hk
  have hk0 : 0 < k := (rootMultiplicity_pos hp).mpr hroot
  obtain ⟨w, hw, hw0⟩ := exists_eq_pow_rootMultiplicity_mul_and_not_dvd p hp x₀
  rw [← hk] at hw
  have hwx : w.eval x₀ ≠ 0 := by
    intro h; exact hw0 (dvd_iff_isRoot.mpr h)
  obtain ⟨m, hm⟩ : ∃ m, k = m + 1 := ⟨k - 1, by omega⟩
  -- p p' = (X - x₀)^(2m+1) * ((m+1) w² + (X - x₀) w w')
  have hpp : p * derivative p =
      (X - C x₀) ^ (2 * m + 1) * (((m : ℝ[X]) + 1) * w ^ 2 + (X - C x₀) * (w * derivative w)) := by
    rw [hw, hm, derivative_mul, derivative_pow]
    simp only [derivative_sub, derivative_X, derivative_C, sub_zero, mul_one, Nat.add_sub_cancel,
      Nat.cast_add, Nat.cast_one, C_add, C_1, map_natCast]
    ring
  have hpos : ∀ᶠ x in 𝓝 x₀,
      0 < (((m : ℝ[X]) + 1) * w ^ 2 + (X - C x₀) * (w * derivative w)).eval x := by
    have hcont : ContinuousAt
        (fun x => (((m : ℝ[X]) + 1) * w ^ 2 + (X - C x₀) * (w * derivative w)).eval x) x₀ :=
      (Polynomial.continuous _).continuousAt
    refine hcont.eventually (lt_mem_nhds ?_)
    simp only [eval_add, eval_mul, eval_natCast, eval_one, eval_pow, eval_sub, eval_X, eval_C,
      sub_self, zero_mul, add_zero]
    positivity
  have key : ∀ x, c * (p * derivative p).eval x = (g.eval x) ^ 2 * (f.eval x * h.eval x) := by
    intro x
    have e1 := congrArg (eval x) h1
    have e2 := congrArg (eval x) h2
    simp only [eval_mul, eval_C] at e1 e2 ⊢
    rw [show c * (p.eval x * (derivative p).eval x) = p.eval x * (c * (derivative p).eval x) by ring,
      e2, e1]
    ring
  constructor
  · rw [eventually_nhdsWithin_iff]
    filter_upwards [hpos] with x hx1 hx2
    have hx2 : x < x₀ := hx2
    have e := key x
    rw [hpp, eval_mul, eval_pow, eval_sub, eval_X, eval_C] at e
    have hneg : (x - x₀) ^ (2 * m + 1) < 0 := by
      rw [Odd.pow_neg_iff ⟨m, rfl⟩]; linarith
    have : c * ((x - x₀) ^ (2 * m + 1) *
        (((m : ℝ[X]) + 1) * w ^ 2 + (X - C x₀) * (w * derivative w)).eval x) < 0 :=
      mul_neg_of_pos_of_neg hc (mul_neg_of_neg_of_pos hneg hx1)
    rw [e] at this
    by_contra hcon
    push Not at hcon
    have := mul_nonneg (sq_nonneg (g.eval x)) hcon
    linarith
  · rw [eventually_nhdsWithin_iff]
    filter_upwards [hpos] with x hx1 hx2
    have hx2 : x₀ < x := hx2
    have e := key x
    rw [hpp, eval_mul, eval_pow, eval_sub, eval_X, eval_C] at e
    have hpos' : 0 < (x - x₀) ^ (2 * m + 1) := pow_pos (by linarith) _
    have : 0 < c * ((x - x₀) ^ (2 * m + 1) *
        (((m : ℝ[X]) + 1) * w ^ 2 + (X - C x₀) * (w * derivative w)).eval x) :=
      mul_pos hc (mul_pos hpos' hx1)
    rw [e] at this
    by_contra hcon
    push Not at hcon
    have := mul_nonpos_of_nonneg_of_nonpos (sq_nonneg (g.eval x)) hcon
    linarith

/-- a signed remainder sequence: every element is, up to positive factors, the negated remainder of
the two before it, and the last one divides the one before it -/
def RemSeq : List ℝ[X] → Prop
  | p :: q :: rest =>
    match rest with
    | [] => q ≠ 0 ∧ q ∣ p
    | r :: _ =>
      (∃ c d : ℝ, 0 < c ∧ 0 < d ∧ ∃ a : ℝ[X], C c * p = a * q - C d * r) ∧ RemSeq (q :: rest)
  | _ => False

/-- dividing by the last element gives a chain that is good everywhere -/
theorem RemSeq.divide : ∀ (n : ℕ) (l : List ℝ[X]), l.length ≤ n → RemSeq l →
    ∃ (g : ℝ[X]) (m : List ℝ[X]), g ≠ 0 ∧ l = m.map (g * ·) ∧ (∀ x, GoodAt x m) := by
  intro n
  induction n with
  | zero =>
    intro l hl h
    have : l = [] := List.length_eq_zero_iff.mp (by omega)
    subst this; exact absurd h id
  | succ n ih =>
    intro l hl h
    match l, hl, h with
    | p :: q :: [], _, h =>
      obtain ⟨hq, a, ha⟩ := h
      refine ⟨q, [a, 1], hq, by simp [ha], ?_⟩
      intro x
      exact ⟨fun h => by simp at h, by simp [GoodAt]⟩
    | p :: q :: r :: rest, hl, h =>
      obtain ⟨⟨c, d, hc, hd, a, ha⟩, h2⟩ := h
      obtain ⟨g, m, hg, hm, hgood⟩ := ih (q :: r :: rest) (by simp at hl ⊢; omega) h2
      match m, hm, hgood with
      | q' :: r' :: m', hm, hgood =>
        simp only [List.map_cons, List.cons.injEq] at hm
        obtain ⟨hq, hr, hrest⟩ := hm
        have hdvd : g ∣ C c * p := by
          rw [ha, hq, hr]
          exact ⟨a * q' - C d * r', by ring⟩
        have hu : IsUnit (C c : ℝ[X]) := isUnit_C.mpr hc.ne'.isUnit
        obtain ⟨p', hp'⟩ := hu.dvd_mul_left.mp hdvd
        have hrel : C c * p' = a * q' - C d * r' := by
          apply mul_left_cancel₀ hg
          rw [show g * (C c * p') = C c * (g * p') by ring, ← hp', ha, hq, hr]; ring
        refine ⟨g, p' :: q' :: r' :: m', hg, by simp [hp', hq, hr, hrest], ?_⟩
        intro x
        refine ⟨fun hx => ⟨r', m', rfl, ?_⟩, hgood x⟩
        have e := congrArg (eval x) hrel
        simp only [eval_mul, eval_sub, eval_C, hx, mul_zero, zero_sub] at e
        -- r' cannot vanish
        have hr0 := (hgood x).second_ne hx
        have : c * (p'.eval x * r'.eval x) = -(d * r'.eval x ^ 2) := by
          rw [show c * (p'.eval x * r'.eval x) = (c * p'.eval x) * r'.eval x by ring, e]; ring
        have hneg : c * (p'.eval x * r'.eval x) < 0 := by
          rw [this]
          have : 0 < r'.eval x ^ 2 := by positivity
          have := mul_pos hd this
          linarith
        by_contra hcon
        push Not at hcon
        have := mul_nonneg hc.le hcon
        linarith

/-- **Sturm's theorem**: for a signed remainder sequence starting with `p` and a positive multiple of
its derivative, and points at which not both vanish, the number of sign changes lost between `a` and
`b` is the number of distinct roots in `(a, b]`. -/
theorem sturm (p q : ℝ[X]) (rest : List ℝ[X]) (hp : p ≠ 0) (c : ℝ) (hc : 0 < c)
    (hq : q = C c * derivative p) (hs : RemSeq (p :: q :: rest)) (a b : ℝ) (hab : a ≤ b)
    (ha : p.eval a ≠ 0 ∨ (derivative p).eval a ≠ 0) (hb : p.eval b ≠ 0 ∨ (derivative p).eval b ≠ 0) :
    signChanges ((p :: q :: rest).map (eval a)) =
      signChanges ((p :: q :: rest).map (eval b)) +
        (p.roots.toFinset.filter (fun x => a < x ∧ x ≤ b)).card := by
  obtain ⟨g, m, hg, hm, hgood⟩ := RemSeq.divide _ _ le_rfl hs
  match m, hm, hgood with
  | f :: h :: m', hm, hgood =>
    simp only [List.map_cons, List.cons.injEq] at hm
    obtain ⟨h1, h2, h3⟩ := hm
    have hf : f ≠ 0 := by rintro rfl; simp at h1; exact hp h1
    have hcr : Crosses f h := crosses_derivative p g f h hp c hc h1 (by rw [← hq, h2])
    have hgx : ∀ x, (p.eval x ≠ 0 ∨ (derivative p).eval x ≠ 0) → g.eval x ≠ 0 := by
      intro x hx hgx
      have e1 : p.eval x = 0 := by rw [h1, eval_mul, hgx, zero_mul]
      have e2 : c * (derivative p).eval x = 0 := by
        have := congrArg (eval x) (hq.symm.trans h2)
        rw [eval_mul, eval_C, eval_mul, hgx, zero_mul] at this
        exact this
      rcases hx with hx | hx
      · exact hx e1
      · exact hx ((mul_eq_zero.mp e2).resolve_left hc.ne')
    have hsc : ∀ x, g.eval x ≠ 0 → signChanges ((p :: q :: rest).map (eval x)) =
        signChanges ((f :: h :: m').map (eval x)) := by
      intro x hx
      rw [h1, h2, h3, ← signChanges_mul (g.eval x) hx ((f :: h :: m').map (eval x))]
      simp [List.map_map, Function.comp_def]
    have hk := constant f h m' hf hgood hcr a b
    rw [hsc a (hgx a ha), hsc b (hgx b hb)]
    -- roots of f are the roots of p
    have hroots : p.roots.toFinset = f.roots.toFinset := by
      ext x
      simp only [Multiset.mem_toFinset, mem_roots', IsRoot.def]
      constructor
      · rintro ⟨-, hx⟩
        refine ⟨hf, ?_⟩
        by_contra hfx
        -- near a root of g that is not a root of f the chain contradicts: use multiplicities
        have hmp : p.rootMultiplicity x = g.rootMultiplicity x := by
          rw [h1, rootMultiplicity_mul (by rw [← h1]; exact hp), rootMultiplicity_eq_zero hfx, add_zero]
        have hp0 : 0 < p.rootMultiplicity x := (rootMultiplicity_pos hp).mpr hx
        have hder : derivative p ≠ 0 := by
          intro h0
          have := derivative_eq_zero.mp h0
          obtain ⟨k, hk⟩ := natDegree_eq_zero.mp this
          rw [← hk, eval_C] at hx
          rw [← hk, hx] at hp
          simp at hp
        have hgd : g ∣ derivative p := by
          have : g ∣ C c * derivative p := by rw [← hq, h2]; exact Dvd.intro _ rfl
          exact (isUnit_C.mpr hc.ne'.isUnit).dvd_mul_left.mp this
        have h5 := rootMultiplicity_le_rootMultiplicity_of_dvd hder hgd x
        have h6 := derivative_rootMultiplicity_of_root (p := p) (t := x) hx
        omega
      · rintro ⟨-, hx⟩
        exact ⟨hp, by rw [h1, eval_mul, hx, mul_zero]⟩
    rw [hroots]
    have hcard : rootsUpTo f b = rootsUpTo f a +
        (f.roots.toFinset.filter (fun x => a < x ∧ x ≤ b)).card := by
      unfold rootsUpTo
      rw [← Finset.card_union_of_disjoint]
      · congr 1
        ext x
        simp only [Finset.mem_filter, Finset.mem_union]
        constructor
        · rintro ⟨h, h'⟩
          by_cases hx : x ≤ a
          · exact Or.inl ⟨h, hx⟩
          · exact Or.inr ⟨h, not_le.mp hx, h'⟩
        · rintro (⟨h, h'⟩ | ⟨h, -, h'⟩)
          · exact ⟨h, h'.trans hab⟩
          · exact ⟨h, h'⟩
      · rw [Finset.disjoint_left]
        intro x hx hx'
        simp only [Finset.mem_filter] at hx hx'
        linarith [hx.2, hx'.2.1]
    omega

end Algebraics.Sturm
