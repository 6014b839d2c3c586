import Verif.Lemmas.MachinePoly
import Verif.Spec.MachinePoly

/-!
# The coefficients of machine polynomials stay in their type
-/

namespace Algebraics

open Polynomial

namespace MachinePoly

variable {w : ℕ} {m : Overflow}

/-- every element is a `w`-bit integer -/
def AllFit (w : ℕ) (p : List ℤ) : Prop := ∀ c ∈ p, (IntTy.signed w).fits c

theorem AllFit.cons {c : ℤ} {p : List ℤ} (hc : (IntTy.signed w).fits c) (hp : AllFit w p) : AllFit w (c :: p) := by
  intro d hd
  rcases List.mem_cons.mp hd with rfl | hd
  · exact hc
  · exact hp d hd

theorem allFit_nil : AllFit w [] := fun _ h => absurd h (by simp)

theorem AllFit.valid {p : List ℤ} (h : AllFit w p) : Valid w (normalize p) := by
  constructor
  · intro c hc
    exact h c ((List.rdropWhile_prefix _ p).subset hc)
  · intro hl
    have hne : stripZeros p ≠ [] := by
      intro e
      rw [normalize, e] at hl
      simp at hl
    refine stripZeros_last p hne ?_
    rw [normalize, List.getLast?_eq_some_getLast hne, Option.some.injEq] at hl
    exact hl

theorem Valid.allFit {p : List ℤ} (h : Valid w p) : AllFit w p := h.1

theorem Valid.tail {a : ℤ} {p : List ℤ} (h : Valid w (a :: p)) : AllFit w p := fun c hc => h.1 c (by simp [hc])

theorem addSubElems_fit (hw : 0 < w) (f : ℤ → ℤ → ℤ) (l r c : List ℤ) (h : addSubElems w m f l r = some c) :
    AllFit w c := by
  induction l generalizing r c with
  | nil =>
    induction r generalizing c with
    | nil => simp [addSubElems] at h; subst h; exact allFit_nil
    | cons b bs ih =>
      simp only [addSubElems, bind, Option.bind_eq_some_iff, pure, Option.some.injEq] at h
      obtain ⟨l', h1, r', h2, e, h3, cs, h4, rfl⟩ := h
      exact (ih _ h4).cons (fits_of_fit hw h3)
  | cons a as ih =>
    cases r with
    | nil =>
      simp only [addSubElems, bind, Option.bind_eq_some_iff, pure, Option.some.injEq] at h
      obtain ⟨e, h1, cs, h4, rfl⟩ := h
      exact (ih _ _ h4).cons (fits_of_fit hw h1)
    | cons b bs =>
      simp only [addSubElems, bind, Option.bind_eq_some_iff, pure, Option.some.injEq] at h
      obtain ⟨l', h1, r', h2, e, h3, cs, h4, rfl⟩ := h
      exact (ih _ _ h4).cons (fits_of_fit hw h3)

theorem addSubSingle_valid (hw : 0 < w) (f : ℤ → ℤ → ℤ) (l : List ℤ) (hl : Valid w l) (r : ℤ) (c : List ℤ)
    (h : addSubSingle w m f l r = some c) : Valid w c := by
  cases l with
  | nil =>
    simp only [addSubSingle, bind, Option.bind_eq_some_iff, pure, Option.some.injEq] at h
    obtain ⟨a', h1, r', h2, e, h3, rfl⟩ := h
    exact (allFit_nil.cons (fits_of_fit hw h3)).valid
  | cons a l =>
    simp only [addSubSingle, bind, Option.bind_eq_some_iff, pure, Option.some.injEq] at h
    obtain ⟨a', h1, r', h2, e, h3, rfl⟩ := h
    exact (hl.tail.cons (fits_of_fit hw h3)).valid

theorem mapM_fit (hw : 0 < w) (g : ℤ → ℤ) (l c : List ℤ) (h : l.mapM (fun a => m.fit w (g a)) = some c) :
    AllFit w c := by
  induction l generalizing c with
  | nil => simp at h; subst h; exact allFit_nil
  | cons a l ih =>
    simp only [List.mapM_cons, bind, Option.bind_eq_some_iff, pure, Option.some.injEq] at h
    obtain ⟨b, h1, cs, h2, rfl⟩ := h
    exact (ih _ h2).cons (fits_of_fit hw h1)

theorem mulStep_fit (hw : 0 < w) {acc c : List ℤ} {i : ℕ} {v : ℤ} (ha : AllFit w acc) (hv : (IntTy.signed w).fits v)
    (h : mulStep w m acc i v = some c) : AllFit w c := by
  unfold mulStep at h
  split_ifs at h with hc
  · cases h
    intro d hd
    rcases List.mem_append.mp hd with hd | hd
    · exact ha d hd
    · rw [List.mem_singleton.mp hd]; exact hv
  · simp only [bind, Option.bind_eq_some_iff, pure, Option.some.injEq] at h
    obtain ⟨s, hs, rfl⟩ := h
    intro d hd
    rcases List.mem_or_eq_of_mem_set hd with hd | rfl
    · exact ha d hd
    · exact fits_of_fit hw hs

theorem mulRow_fit (hw : 0 < w) (a : ℤ) (bs : List ℤ) : ∀ (i : ℕ) (acc c : List ℤ), AllFit w acc →
    mulRow w m a i bs acc = some c → AllFit w c := by
  induction bs with
  | nil => intro i acc c ha h; simp only [mulRow, Option.some.injEq] at h; subst h; exact ha
  | cons b bs ih =>
    intro i acc c ha h
    simp only [mulRow, bind, Option.bind_eq_some_iff] at h
    obtain ⟨v, h1, d, h2, h3⟩ := h
    exact ih _ _ _ (mulStep_fit hw ha (fits_of_fit hw h1) h2) h3

theorem mulRows_fit (hw : 0 < w) (r as : List ℤ) : ∀ (i : ℕ) (acc c : List ℤ), AllFit w acc →
    mulRows w m r i as acc = some c → AllFit w c := by
  induction as with
  | nil => intro i acc c ha h; simp only [mulRows, Option.some.injEq] at h; subst h; exact ha
  | cons a as ih =>
    intro i acc c ha h
    simp only [mulRows, bind, Option.bind_eq_some_iff] at h
    obtain ⟨d, h1, h2⟩ := h
    exact ih _ _ _ (mulRow_fit hw a r i acc d ha h1) h2

theorem valid_nil : Valid w [] := ⟨fun _ h => absurd h (by simp), by simp⟩

theorem mul_valid (hw : 0 < w) (l r c : List ℤ) (h : mul w m l r = some c) : Valid w c := by
  unfold mul at h
  split_ifs at h with hc
  · cases h; exact valid_nil
  · simp only [Option.map_eq_some_iff] at h
    obtain ⟨d, h, rfl⟩ := h
    exact (mulRows_fit hw r l 0 [] d allFit_nil h).valid

theorem powLoop_valid (hw : 0 < w) (fuel : ℕ) : ∀ (base : List ℤ) (e : ℕ) (r : Option (List ℤ)) (c : List ℤ),
    Valid w base → (∀ v, r = some v → Valid w v) → Poly.powLoop (mul w m) fuel base e r = some (some c) →
    Valid w c := by
  induction fuel with
  | zero => intro base e r c hb hr h; simp only [Poly.powLoop, Option.some.injEq] at h; exact hr c h
  | succ fuel ih =>
    intro base e r c hb hr h
    rw [Poly.powLoop] at h
    cases hs : Poly.powStep (mul w m) (e % 2 == 1) base r with
    | none => rw [hs] at h; cases h
    | some r' =>
      rw [hs] at h
      have hr' : ∀ v, r' = some v → Valid w v := by
        intro v hv
        subst hv
        unfold Poly.powStep at hs
        split at hs
        · cases r with
          | none => simp only [Option.some.injEq] at hs; exact hs ▸ hb
          | some u =>
            simp only [Option.map_eq_some_iff, Option.some.injEq] at hs
            obtain ⟨d, h1, rfl⟩ := hs
            exact mul_valid hw _ _ _ h1
        · simp only [Option.some.injEq] at hs
          exact hr v hs
      simp only at h
      split at h
      · simp only [Option.some.injEq] at h; exact hr' c h
      · cases hb' : mul w m base base with
        | none => rw [hb'] at h; cases h
        | some b =>
          rw [hb'] at h
          exact ih b _ r' c (mul_valid hw _ _ _ hb') hr' h

theorem derivElems_fit (hw : 0 < w) (es : List ℤ) : ∀ (i : ℕ) (c : List ℤ), derivElems w m i es = some c →
    AllFit w c := by
  induction es with
  | nil => intro i c h; simp [derivElems] at h; subst h; exact allFit_nil
  | cons e es ih =>
    intro i c h
    simp only [derivElems, bind, Option.bind_eq_some_iff, pure, Option.some.injEq] at h
    obtain ⟨k, h1, v, h2, cs, h3, rfl⟩ := h
    exact (ih _ _ h3).cons (fits_of_fit hw h2)

theorem subRow_fit (hw : 0 < w) (qc : ℤ) (ds : List ℤ) : ∀ (rs c : List ℤ), AllFit w rs →
    subRow w m qc ds rs = some c → AllFit w c := by
  induction ds with
  | nil => intro rs c hr h; cases rs <;> simp [subRow] at h <;> subst h <;> exact hr
  | cons d ds ih =>
    intro rs c hr h
    cases rs with
    | nil => simp [subRow] at h; subst h; exact hr
    | cons r rs =>
      simp only [subRow, bind, Option.bind_eq_some_iff, pure, Option.some.injEq] at h
      obtain ⟨v, h1, e, h2, cs, h3, rfl⟩ := h
      exact (ih _ _ (fun x hx => hr x (by simp [hx])) h3).cons (fits_of_fit hw h2)

theorem subAt_fit (hw : 0 < w) (qc : ℤ) (ds : List ℤ) (k : ℕ) : ∀ (rs c : List ℤ), AllFit w rs →
    subAt w m qc ds k rs = some c → AllFit w c := by
  induction k with
  | zero => intro rs c hr h; simp only [subAt] at h; exact subRow_fit hw qc ds rs c hr h
  | succ k ih =>
    intro rs c hr h
    cases rs with
    | nil => simp [subAt] at h; subst h; exact hr
    | cons r rs =>
      simp only [subAt, bind, Option.bind_eq_some_iff, pure, Option.some.injEq] at h
      obtain ⟨cs, h3, rfl⟩ := h
      exact (ih _ _ (fun x hx => hr x (by simp [hx])) h3).cons (hr r (by simp))

theorem zero_fits (hw : 0 < w) : (IntTy.signed w).fits 0 := by
  unfold IntTy.fits
  exact ⟨by simp, by positivity⟩

theorem getLastD_fit (hw : 0 < w) (l : List ℤ) (h : AllFit w l) : (IntTy.signed w).fits (l.getLastD 0) := by
  induction l using List.reverseRecOn with
  | nil => simpa using zero_fits hw
  | append_singleton l a _ => simpa using h a (by simp)

theorem pdrLoop_fit (hw : 0 < w) (dl : ℤ) (den : List ℤ) (k : ℕ) : ∀ (rem q : List ℤ) (c : List ℤ × List ℤ),
    AllFit w rem → AllFit w q → pdrLoop w m dl den k rem q = some c → AllFit w c.1 ∧ AllFit w c.2 := by
  induction k with
  | zero => intro rem q c hr hq h; simp [pdrLoop] at h; subst h; exact ⟨hq, hr⟩
  | succ k ih =>
    intro rem q c hr hq h
    simp only [pdrLoop, bind, Option.bind_eq_some_iff] at h
    obtain ⟨r1, h1, r2, h2, h3⟩ := h
    exact ih _ _ _ (subAt_fit hw _ _ _ _ _ (mapM_fit hw (fun e => e * dl) _ _ h1) h2)
      (hq.cons (getLastD_fit hw _ hr)) h3

theorem scaleTail_fit (hw : 0 < w) (dl : ℤ) (qs : List ℤ) : ∀ (f : ℤ) (c : List ℤ × ℤ),
    (IntTy.signed w).fits f → scaleTail w m dl f qs = some c → AllFit w c.1 ∧ (IntTy.signed w).fits c.2 := by
  induction qs with
  | nil => intro f c hf h; simp [scaleTail] at h; subst h; exact ⟨allFit_nil, hf⟩
  | cons q qs ih =>
    intro f c hf h
    simp only [scaleTail, bind, Option.bind_eq_some_iff, pure, Option.some.injEq] at h
    obtain ⟨v, h1, g, h2, s, h3, rfl⟩ := h
    obtain ⟨e1, e2⟩ := ih _ _ (fits_of_fit hw h2) h3
    exact ⟨e1.cons (fits_of_fit hw h1), e2⟩

theorem elementPseudoDivRem_fit (hw : 0 < w) (num den : List ℤ) (hn : AllFit w num) (hd : AllFit w den) (ql : ℕ)
    (c : List ℤ × List ℤ × ℤ) (h : elementPseudoDivRem w m num den ql = some c) :
    AllFit w c.1 ∧ AllFit w c.2.1 ∧ (IntTy.signed w).fits c.2.2 := by
  simp only [elementPseudoDivRem, bind, Option.bind_eq_some_iff] at h
  obtain ⟨⟨q, r⟩, h1, h2⟩ := h
  obtain ⟨e1, e2⟩ := pdrLoop_fit hw _ _ _ _ _ _ hn allFit_nil h1
  cases q with
  | nil => simp only [pure, Option.some.injEq] at h2; subst h2; exact ⟨allFit_nil, e2, getLastD_fit hw _ hd⟩
  | cons q0 qs =>
    simp only [bind, Option.bind_eq_some_iff, pure, Option.some.injEq] at h2
    obtain ⟨s, h3, rfl⟩ := h2
    obtain ⟨e3, e4⟩ := scaleTail_fit hw _ _ _ _ (getLastD_fit hw _ hd) h3
    exact ⟨e3.cons (e1 q0 (by simp)), e2, e4⟩

end MachinePoly

end Algebraics
