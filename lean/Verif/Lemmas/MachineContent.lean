import Verif.Model.MachineContent
import Verif.Spec.MachineContent
import Verif.Lemmas.MachinePolyCut
import Verif.Props.OpForms

/-!
# Lemmas on content and norms of polynomials over machine integers
-/

namespace Algebraics

open Polynomial

namespace MachinePoly

variable {w : ℕ} {m : Overflow}

theorem two_pow_pred (hw : 0 < w) : (2 : ℤ) ^ w = 2 * 2 ^ (w - 1) := by
  rw [← pow_succ']; congr 1; omega

/-- the only overflow of a number from 0 to `2^(w-1)` -/
theorem fit_top (hw : 0 < w) {g : ℤ} (h0 : 0 ≤ g) (h1 : g ≤ 2 ^ (w - 1)) :
    (g < 2 ^ (w - 1) ∧ m.fit w g = some g) ∨
    (g = 2 ^ (w - 1) ∧ m.fit w g = match m with
      | .panics => none
      | .wraps => some (-2 ^ (w - 1))) := by
  have hp : (0 : ℤ) < 2 ^ (w - 1) := by positivity
  rcases lt_or_eq_of_le h1 with h | h
  · left
    have hr : InRange w g := ⟨by omega, h⟩
    refine ⟨h, ?_⟩
    cases m with
    | panics => exact fit_panics hr
    | wraps => rw [fit_wraps, bmod_of_inRange hw hr]
  · right
    refine ⟨h, ?_⟩
    cases m with
    | panics => exact fit_panics_none fun hr => absurd hr.2 (by omega)
    | wraps =>
      rw [fit_wraps, h]
      have hr : InRange w (-2 ^ (w - 1)) := ⟨le_refl _, by omega⟩
      rw [← bmod_of_inRange hw hr]
      simp only [Option.some.injEq]
      have : (2 : ℤ) ^ (w - 1) = -2 ^ (w - 1) + ((2 ^ w : ℕ) : ℤ) := by push_cast; rw [two_pow_pred hw]; ring
      conv_lhs => rw [this]
      rw [Int.add_bmod_right, bmod_of_inRange hw hr]

theorem gcd_le_top {a b : ℤ} (ha : InRange w a) (hb : InRange w b) : (Int.gcd a b : ℤ) ≤ 2 ^ (w - 1) := by
  have hp : (0 : ℤ) < 2 ^ (w - 1) := by positivity
  have hA : |a| ≤ 2 ^ (w - 1) := abs_le.mpr ⟨ha.1, ha.2.le⟩
  have hB : |b| ≤ 2 ^ (w - 1) := abs_le.mpr ⟨hb.1, hb.2.le⟩
  by_cases h : a = 0
  · subst h
    simpa using hB
  · refine le_trans ?_ hA
    exact Int.le_of_dvd (abs_pos.mpr h) ((dvd_abs _ _).mpr (Int.gcd_dvd_left a b))

/-- the numbers of the type that `2^(w-1)` divides -/
theorem top_dvd {a : ℤ} (ha : InRange w a) (h : (2 : ℤ) ^ (w - 1) ∣ a) : a = 0 ∨ a = -2 ^ (w - 1) := by
  have hp : (0 : ℤ) < 2 ^ (w - 1) := by positivity
  obtain ⟨k, rfl⟩ := h
  have h1 : -1 ≤ k := by
    by_contra hk
    have := ha.1
    nlinarith
  have h2 : k < 1 := by
    by_contra hk
    have := ha.2
    nlinarith
  have : k = -1 ∨ k = 0 := by omega
  rcases this with rfl | rfl
  · right; ring
  · left; ring

theorem gcd_eq_top {a b : ℤ} (ha : InRange w a) (hb : InRange w b) :
    (Int.gcd a b : ℤ) = 2 ^ (w - 1) ↔
      (∀ x ∈ [a, b], x = 0 ∨ x = -2 ^ (w - 1)) ∧ -2 ^ (w - 1) ∈ [a, b] := by
  have hp : (0 : ℤ) < 2 ^ (w - 1) := by positivity
  constructor
  · intro h
    have h1 := top_dvd ha (h ▸ Int.gcd_dvd_left a b)
    have h2 := top_dvd hb (h ▸ Int.gcd_dvd_right a b)
    refine ⟨by simp [h1, h2], ?_⟩
    rcases h1 with rfl | rfl
    · rcases h2 with rfl | rfl
      · simp at h
        omega
      · simp
    · simp
  · rintro ⟨h1, h2⟩
    have ha' := h1 a (by simp)
    have hb' := h1 b (by simp)
    rcases ha' with rfl | rfl <;> rcases hb' with rfl | rfl
    · simp at h2
    · simp
    · simp
    · simp

theorem fold_some (hw : 0 < w) (as : List ℤ) : ∀ (a r : ℤ), InRange w a → AllFit w as →
    as.foldlM (gcd w m) a = some r →
    InRange w r ∧ (∀ d, d ∣ r ↔ d ∣ a ∧ ∀ c ∈ as, d ∣ c) ∧ (as ≠ [] → 0 ≤ r ∨ r = -2 ^ (w - 1)) := by
  have hp : (0 : ℤ) < 2 ^ (w - 1) := by positivity
  induction as with
  | nil =>
    intro a r ha _ h
    simp only [List.foldlM_nil, pure, Option.some.injEq] at h
    subst h
    exact ⟨ha, by simp, by simp⟩
  | cons c cs ih =>
    intro a r ha hcs h
    have hc : InRange w c := hcs c (by simp)
    have hcs' : AllFit w cs := fun x hx => hcs x (by simp [hx])
    simp only [List.foldlM_cons, bind, Option.bind_eq_some_iff] at h
    obtain ⟨g, hg, h⟩ := h
    have hgp : InRange w g ∧ (∀ d : ℤ, d ∣ g ↔ d ∣ a ∧ d ∣ c) ∧ (0 ≤ g ∨ g = -2 ^ (w - 1)) := by
      unfold gcd at hg
      have hd : ∀ d : ℤ, d ∣ (Int.gcd a c : ℤ) ↔ d ∣ a ∧ d ∣ c := fun d => Int.dvd_coe_gcd_iff
      rcases fit_top (m := m) hw (by positivity) (gcd_le_top ha hc) with ⟨h1, h2⟩ | ⟨h1, h2⟩
      · rw [h2, Option.some.injEq] at hg
        rw [← hg]
        exact ⟨⟨by have : (0 : ℤ) ≤ (Int.gcd a c : ℤ) := by positivity
                   omega, h1⟩, hd, .inl (by positivity)⟩
      · rw [h2] at hg
        cases m with
        | panics => simp at hg
        | wraps =>
          simp only [Option.some.injEq] at hg
          subst hg
          refine ⟨⟨le_refl _, by omega⟩, fun d => ?_, .inr rfl⟩
          rw [dvd_neg, ← h1, hd]
    obtain ⟨i1, i2, i3⟩ := ih g r hgp.1 hcs' h
    refine ⟨i1, fun d => ?_, fun _ => ?_⟩
    · rw [i2, hgp.2.1]
      simp [and_assoc]
    · cases cs with
      | nil =>
        simp only [List.foldlM_nil, pure, Option.some.injEq] at h
        subst h
        exact hgp.2.2
      | cons _ _ => exact i3 (by simp)

theorem fold_wraps (as : List ℤ) : ∀ a : ℤ, ∃ r, as.foldlM (gcd w .wraps) a = some r := by
  induction as with
  | nil => intro a; exact ⟨a, rfl⟩
  | cons c cs ih =>
    intro a
    obtain ⟨r, hr⟩ := ih ((Int.gcd a c : ℤ).bmod (2 ^ w))
    exact ⟨r, by simpa [gcd, fit_wraps] using hr⟩

theorem fold_panics (hw : 0 < w) (as : List ℤ) : ∀ a : ℤ, InRange w a → AllFit w as →
    (as.foldlM (gcd w .panics) a = none ↔ ∃ k, 1 ≤ k ∧ k ≤ as.length ∧
      (∀ x ∈ a :: as.take k, x = 0 ∨ x = -2 ^ (w - 1)) ∧ -2 ^ (w - 1) ∈ a :: as.take k) := by
  have hp : (0 : ℤ) < 2 ^ (w - 1) := by positivity
  induction as with
  | nil =>
    intro a ha _
    simp only [List.foldlM_nil, pure, reduceCtorEq, List.length_nil, false_iff]
    rintro ⟨k, h1, h2, -⟩
    omega
  | cons c cs ih =>
    intro a ha hcs
    have hc : InRange w c := hcs c (by simp)
    have hcs' : AllFit w cs := fun x hx => hcs x (by simp [hx])
    rw [List.foldlM_cons]
    rcases fit_top (m := .panics) hw (by positivity) (gcd_le_top ha hc) with ⟨h1, h2⟩ | ⟨h1, h2⟩
    · have hnt : ¬ ((∀ x ∈ [a, c], x = 0 ∨ x = -2 ^ (w - 1)) ∧ -2 ^ (w - 1) ∈ [a, c]) := by
        rw [← gcd_eq_top ha hc]
        omega
      have hg : InRange w (Int.gcd a c : ℤ) := ⟨by have : (0 : ℤ) ≤ (Int.gcd a c : ℤ) := by positivity
                                                   omega, h1⟩
      have h2' : gcd w .panics a c = some (Int.gcd a c : ℤ) := h2
      rw [h2']
      simp only [bind, Option.bind_some]
      rw [ih _ hg hcs']
      constructor
      · rintro ⟨k, k1, k2, k3, k4⟩
        have hz : Int.gcd a c = 0 := by
          rcases k3 _ (List.mem_cons_self ..) with h | h
          · exact_mod_cast h
          · have : (0 : ℤ) ≤ (Int.gcd a c : ℤ) := by positivity
            omega
        have ha0 : a = 0 := (Int.gcd_eq_zero_iff.mp hz).1
        have hc0 : c = 0 := (Int.gcd_eq_zero_iff.mp hz).2
        refine ⟨k + 1, by omega, by simpa using k2, ?_, ?_⟩
        · intro x hx
          rw [List.take_succ_cons] at hx
          rcases List.mem_cons.mp hx with rfl | hx
          · exact .inl ha0
          · rcases List.mem_cons.mp hx with rfl | hx
            · exact .inl hc0
            · exact k3 x (by simp [hx])
        · rw [List.take_succ_cons]
          rcases List.mem_cons.mp k4 with h | h
          · rw [hz] at h
            simp at h
          · simp [h]
      · rintro ⟨k, k1, k2, k3, k4⟩
        obtain ⟨k, rfl⟩ : ∃ j, k = j + 1 := ⟨k - 1, by omega⟩
        rw [List.take_succ_cons] at k3 k4
        have ha' := k3 a (by simp)
        have hc' := k3 c (by simp)
        have hmem : ¬ -2 ^ (w - 1) ∈ [a, c] := fun h => hnt ⟨by
          intro x hx
          simp only [List.mem_cons, List.not_mem_nil, or_false] at hx
          rcases hx with rfl | rfl
          · exact ha'
          · exact hc', h⟩
        have ha0 : a = 0 := ha'.resolve_right fun h => hmem (by simp [h])
        have hc0 : c = 0 := hc'.resolve_right fun h => hmem (by simp [h])
        have hz : Int.gcd a c = 0 := Int.gcd_eq_zero_iff.mpr ⟨ha0, hc0⟩
        have k4' : -2 ^ (w - 1) ∈ cs.take k := by
          rcases List.mem_cons.mp k4 with h | h
          · omega
          · rcases List.mem_cons.mp h with h | h
            · omega
            · exact h
        refine ⟨k, ?_, by simpa using k2, ?_, by simp [k4']⟩
        · by_contra hk
          rw [show k = 0 by omega] at k4'
          simp at k4'
        · intro x hx
          rcases List.mem_cons.mp hx with rfl | hx
          · left; exact_mod_cast hz
          · exact k3 x (by simp [hx])
    · have h2' : gcd w .panics a c = none := h2
      rw [h2']
      simp only [bind, Option.bind_none, true_iff]
      have := (gcd_eq_top ha hc).mp h1
      exact ⟨1, le_refl _, by simp, by simpa using this.1, by simpa using this.2⟩

theorem leadingCoeff_getLastD {p : List ℤ} (hp : Valid w p) (hne : p ≠ []) :
    (listPoly p).leadingCoeff = p.getLastD 0 ∧ p.getLastD 0 ≠ 0 ∧ p.getLastD 0 ∈ p := by
  have hl : p.getLast hne ≠ 0 := by
    intro e
    exact hp.2 (by rw [List.getLast?_eq_some_getLast hne, e])
  have hd : p.getLastD 0 = p.getLast hne := by
    rw [List.getLastD_eq_getLast?, List.getLast?_eq_some_getLast hne]
    rfl
  rw [hd]
  exact ⟨(listPoly_leading p hne hl).2, hl, List.getLast_mem hne⟩

/-- what is done after the loop over the coefficients -/
theorem nonzeroContent_of_fold (hw : 0 < w) {a : ℤ} {as : List ℤ} (hp : Valid w (a :: as)) {r : ℤ}
    (h : as.foldlM (gcd w m) a = some r) :
    ∃ v, nonzeroContent w m (a :: as) = some (some v) ∧ InRange w v ∧
      IsContent (a :: as) (listPoly (a :: as)).leadingCoeff v := by
  have hpp : (0 : ℤ) < 2 ^ (w - 1) := by positivity
  obtain ⟨f1, f2, f3⟩ := fold_some hw as a r (hp.1 a (by simp)) hp.tail h
  obtain ⟨l1, l2, l3⟩ := leadingCoeff_getLastD hp (by simp)
  rw [l1]
  generalize hcdef : (a :: as).getLastD 0 = c at l1 l2 l3
  have hdvd : ∀ x ∈ a :: as, r ∣ x := by
    intro x hx
    have := (f2 r).mp dvd_rfl
    rcases List.mem_cons.mp hx with rfl | hx
    · exact this.1
    · exact this.2 x hx
  have hgreat : ∀ d, (∀ x ∈ a :: as, d ∣ x) → d ∣ r := fun d hd =>
    (f2 d).mpr ⟨hd a (by simp), fun x hx => hd x (by simp [hx])⟩
  have hr0 : r ≠ 0 := by
    rintro rfl
    exact l2 (zero_dvd_iff.mp (hdvd c l3))
  have hfold : nonzeroContent w m (a :: as) =
      if (c < 0) ≠ (r < 0) then (m.fit w (0 - r)).bind fun r => some (some r) else some (some r) := by
    simp only [nonzeroContent, h, hcdef, bind, Option.bind_some, pure]
  have hsame : ((c < 0) ↔ (r < 0)) → ∃ v, nonzeroContent w m (a :: as) = some (some v) ∧ InRange w v ∧
      IsContent (a :: as) c v := by
    intro hs
    refine ⟨r, ?_, f1, hdvd, hgreat, ?_⟩
    · rw [hfold, if_neg (by rw [not_not]; exact propext hs)]
    · rcases lt_or_gt_of_ne hr0 with hr | hr
      · exact mul_pos_of_neg_of_neg hr (hs.mpr hr)
      · refine mul_pos hr ?_
        rcases lt_or_gt_of_ne l2 with hc | hc
        · exact absurd (hs.mp hc) (by omega)
        · exact hc
  by_cases has : as = []
  · subst has
    simp only [List.foldlM_nil, pure, Option.some.injEq] at h
    simp at hcdef
    apply hsame
    rw [← h, ← hcdef]
  · rcases f3 has with hr | hr
    · have hr : 0 < r := lt_of_le_of_ne hr (Ne.symm hr0)
      by_cases hc : c < 0
      · have hneg : InRange w (0 - r) := ⟨by have := f1.2; omega, by omega⟩
        have hfit : m.fit w (0 - r) = some (0 - r) := by
          cases m with
          | panics => exact fit_panics hneg
          | wraps => rw [fit_wraps, bmod_of_inRange hw hneg]
        refine ⟨0 - r, ?_, hneg, ?_, ?_, ?_⟩
        · rw [hfold, if_pos, hfit]
          · rfl
          · intro e
            have := e.mp hc
            omega
        · intro x hx
          rw [zero_sub, neg_dvd]
          exact hdvd x hx
        · intro d hd
          rw [zero_sub, dvd_neg]
          exact hgreat d hd
        · exact mul_pos_of_neg_of_neg (by omega) hc
      · exact hsame ⟨fun h => absurd h hc, fun h => by omega⟩
    · apply hsame
      have hc : c = -2 ^ (w - 1) := by
        have := hdvd c l3
        rw [hr, neg_dvd] at this
        exact (top_dvd (hp.1 c l3) this).resolve_left l2
      rw [hr, hc]

/-! ## primitive part -/

theorem divMap_some {c : ℤ} : ∀ (p q : List ℤ), p.mapM (fun e => exactDivPrim (.signed w) e c) = some q →
    AllFit w q ∧ C c * listPoly q = listPoly p ∧ q.length = p.length ∧ (p ≠ [] → c ≠ 0 ∧ q.getLastD 0 * c = p.getLastD 0) := by
  intro p
  induction p with
  | nil =>
    intro q h
    simp only [List.mapM_nil, pure, Option.some.injEq] at h
    subst h
    exact ⟨allFit_nil, by simp, rfl, fun h => absurd rfl h⟩
  | cons a p ih =>
    intro q h
    simp only [List.mapM_cons, bind, Option.bind_eq_some_iff, pure, Option.some.injEq] at h
    obtain ⟨b, h1, bs, h2, rfl⟩ := h
    obtain ⟨i1, i2, i3, i4⟩ := ih bs h2
    obtain ⟨e1, e2, e3⟩ := (C38_exact_div_machine (.signed w) a c b).2.mp h1
    refine ⟨i1.cons e3, ?_, by simp [i3], fun _ => ⟨e1, ?_⟩⟩
    · rw [listPoly_cons, listPoly_cons, ← i2, ← e2, C_mul]
      ring
    · cases p with
      | nil =>
        have : bs = [] := List.length_eq_zero_iff.mp (by simpa using i3)
        subst this
        simpa using e2
      | cons x xs =>
        cases bs with
        | nil => simp at i3
        | cons y ys => simpa using (i4 (by simp)).2

theorem divMap_none (hw : 0 < w) {c : ℤ} (hc : c ≠ 0) : ∀ p : List ℤ, AllFit w p → (∀ e ∈ p, c ∣ e) →
    (p.mapM (fun e => exactDivPrim (.signed w) e c) = none ↔ c = -1 ∧ -2 ^ (w - 1) ∈ p) := by
  have hpp : (0 : ℤ) < 2 ^ (w - 1) := by positivity
  intro p
  induction p with
  | nil => intro _ _; simp
  | cons a p ih =>
    intro hf hd
    have ha : InRange w a := hf a (by simp)
    have ih := ih (fun x hx => hf x (by simp [hx])) (fun x hx => hd x (by simp [hx]))
    obtain ⟨k, hk⟩ := hd a (by simp)
    by_cases hfit : InRange w k
    · have h1 : exactDivPrim (.signed w) a c = some k :=
        (C38_exact_div_machine (.signed w) a c k).2.mpr ⟨hc, by rw [hk]; ring, hfit⟩
      have hno : ¬ (c = -1 ∧ a = -2 ^ (w - 1)) := by
        rintro ⟨rfl, h⟩
        have := hfit.2
        omega
      rw [List.mapM_cons, h1]
      simp only [bind, Option.bind_some, pure, List.mem_cons]
      have : ((List.mapM (fun e => exactDivPrim (.signed w) e c) p).bind fun l => some (k :: l)) = none ↔
          List.mapM (fun e => exactDivPrim (.signed w) e c) p = none := by
        cases List.mapM (fun e => exactDivPrim (.signed w) e c) p <;> simp
      rw [this, ih]
      constructor
      · rintro ⟨h, h'⟩; exact ⟨h, .inr h'⟩
      · rintro ⟨h, h' | h'⟩
        · exact absurd ⟨h, h'.symm⟩ hno
        · exact ⟨h, h'⟩
    · have h1 : exactDivPrim (.signed w) a c = none := by
        cases h : exactDivPrim (.signed w) a c with
        | none => rfl
        | some k' =>
          obtain ⟨-, e2, e3⟩ := (C38_exact_div_machine (.signed w) a c k').2.mp h
          have : k' = k := by
            apply mul_right_cancel₀ hc
            rw [e2, hk]; ring
          exact absurd (this ▸ e3) hfit
      rw [List.mapM_cons, h1]
      simp only [bind, Option.bind_none, true_iff]
      have hcase : c = -1 ∧ a = -2 ^ (w - 1) := by
        have habs : |k| ≤ |a| := by
          rw [hk, abs_mul]
          have : 1 ≤ |c| := Int.one_le_abs hc
          nlinarith [abs_nonneg k]
        have hA : |a| ≤ 2 ^ (w - 1) := abs_le.mpr ⟨ha.1, ha.2.le⟩
        have hk' : k = 2 ^ (w - 1) := by
          have h3 := abs_le.mp (habs.trans hA)
          by_contra hne
          exact hfit ⟨h3.1, lt_of_le_of_ne h3.2 hne⟩
        subst hk'
        have hc1 : c = -1 := by
          have h4 := ha.1
          have h5 := ha.2
          rw [hk] at h4 h5
          have h6 : -1 ≤ c := by by_contra h; nlinarith
          have h7 : c < 1 := by by_contra h; nlinarith
          omega
        exact ⟨hc1, by rw [hk, hc1]; ring⟩
      exact ⟨hcase.1, by simp [hcase.2]⟩

/-! ## norms -/

theorem abs_top {c : ℤ} (hc : InRange w c) : |c| ≤ 2 ^ (w - 1) ∧ (|c| = 2 ^ (w - 1) ↔ c = -2 ^ (w - 1)) := by
  have hpp : (0 : ℤ) < 2 ^ (w - 1) := by positivity
  refine ⟨abs_le.mpr ⟨hc.1, hc.2.le⟩, fun h => ?_, fun h => by rw [h]; simp⟩
  rcases abs_choice c with h' | h'
  · have := hc.2
    omega
  · omega

theorem foldl_max_spec (l : List ℤ) : ∀ a : ℤ, (∀ x ∈ a :: l, x ≤ l.foldl max a) ∧ l.foldl max a ∈ a :: l := by
  induction l with
  | nil => intro a; simp
  | cons b l ih =>
    intro a
    obtain ⟨h1, h2⟩ := ih (max a b)
    rw [List.foldl_cons]
    refine ⟨?_, ?_⟩
    · intro x hx
      have hm := h1 (max a b) (by simp)
      simp only [List.mem_cons] at hx
      rcases hx with rfl | rfl | hx
      · exact (le_max_left _ _).trans hm
      · exact (le_max_right _ _).trans hm
      · exact h1 x (by simp [hx])
    · rcases List.mem_cons.mp h2 with h | h
      · rw [h]
        rcases max_choice a b with h' | h' <;> simp [h']
      · simp [h]

theorem sumAbs_nonneg (l : List ℤ) : 0 ≤ (l.map fun c => |c|).sum :=
  List.sum_nonneg (by simp only [List.mem_map]; rintro x ⟨c, -, rfl⟩; exact abs_nonneg c)

theorem manhattan_fold_wraps (as : List ℤ) : ∀ s z : ℤ, s = z.bmod (2 ^ w) →
    as.foldlM (fun sum c => do
      let v ← abs w .wraps c
      Overflow.wraps.fit w (sum + v)) s = some ((z + (as.map fun c => |c|).sum).bmod (2 ^ w)) := by
  induction as with
  | nil => intro s z h; simp [h]
  | cons c cs ih =>
    intro s z h
    simp only [List.foldlM_cons, abs, fit_wraps, bind, Option.bind_some]
    have := ih ((s + |c|.bmod (2 ^ w)).bmod (2 ^ w)) (z + |c|) (by rw [h]; simp)
    simp only [abs, fit_wraps, bind, Option.bind_some] at this
    rw [this]
    simp [add_assoc]

theorem manhattan_fold_panics (hw : 0 < w) (as : List ℤ) (has : AllFit w as) : ∀ s : ℤ, 0 ≤ s → InRange w s →
    as.foldlM (fun sum c => do
      let v ← abs w .panics c
      Overflow.panics.fit w (sum + v)) s =
      if s + (as.map fun c => |c|).sum < 2 ^ (w - 1) then some (s + (as.map fun c => |c|).sum) else none := by
  have hpp : (0 : ℤ) < 2 ^ (w - 1) := by positivity
  induction as with
  | nil => intro s h0 h; simp [h.2]
  | cons c cs ih =>
    intro s h0 h
    have ih := ih (fun x hx => has x (by simp [hx]))
    have hs := sumAbs_nonneg cs
    have hc0 := abs_nonneg c
    simp only [List.foldlM_cons, abs, bind, List.map_cons, List.sum_cons]
    by_cases h1 : |c| < 2 ^ (w - 1)
    · rw [fit_panics ⟨by omega, h1⟩]
      simp only [Option.bind_some]
      by_cases h2 : s + |c| < 2 ^ (w - 1)
      · have hr : InRange w (s + |c|) := ⟨by omega, h2⟩
        rw [fit_panics hr]
        simp only [Option.bind_some]
        have := ih (s + |c|) (by omega) hr
        simp only [abs, bind] at this
        rw [this, add_assoc]
      · rw [fit_panics_none (fun hr => h2 hr.2), if_neg (by omega)]
        rfl
    · rw [fit_panics_none (fun hr => h1 hr.2), if_neg (by omega)]
      rfl

end MachinePoly

end Algebraics
