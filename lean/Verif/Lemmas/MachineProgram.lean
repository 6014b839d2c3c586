import Verif.Model.MachineProgram
import Verif.Lemmas.MachineWide
import Verif.Props.MachinePoly

/-!
# Programs over machine polynomials: helpers
-/

namespace Algebraics

open Polynomial

namespace MachinePoly

variable {w : ℕ} {m : Overflow}

/-- the polynomials after more operations -/
noncomputable def valuesFrom (vs : List ℤ[X]) (prog : List Op) : List ℤ[X] :=
  prog.foldl (fun rs o => rs ++ [o.value rs]) vs

/-- the results so far, seen through `φ`, are the polynomials they stand for -/
structure Tracks {R : Type} [CommRing R] (φ : ℤ →+* R) (w : ℕ) (rs : List (List ℤ)) (vs : List ℤ[X]) : Prop where
  len : rs.length = vs.length
  eq : ∀ i, (listPoly (rs.getD i [])).map φ = (vs.getD i 0).map φ
  valid : ∀ i, Valid w (rs.getD i [])

theorem tracks_nil {R : Type} [CommRing R] (φ : ℤ →+* R) : Tracks φ w [] [] :=
  ⟨rfl, fun i => by simp, fun i => by simpa using valid_nil⟩

theorem getD_snoc {α : Type} (l : List α) (a d : α) (i : ℕ) :
    (l ++ [a]).getD i d = if i = l.length then a else l.getD i d := by
  split_ifs with h
  · subst h; simp
  · rcases Nat.lt_or_gt_of_ne h with h | h
    · simp [List.getD_eq_getElem?_getD, List.getElem?_append_left h]
    · rw [List.getD_eq_getElem?_getD, List.getD_eq_getElem?_getD, List.getElem?_eq_none (by simp; omega),
        List.getElem?_eq_none (by omega)]

theorem Tracks.snoc {R : Type} [CommRing R] {φ : ℤ →+* R} {rs : List (List ℤ)} {vs : List ℤ[X]}
    (h : Tracks φ w rs vs) {c : List ℤ} {v : ℤ[X]} (hc : Valid w c) (he : (listPoly c).map φ = v.map φ) :
    Tracks φ w (rs ++ [c]) (vs ++ [v]) := by
  refine ⟨by simp [h.len], fun i => ?_, fun i => ?_⟩
  · rw [getD_snoc, getD_snoc, h.len]
    split_ifs
    · exact he
    · exact h.eq i
  · rw [getD_snoc]
    split_ifs
    · exact hc
    · exact h.valid i

theorem pow_hom {R : Type} [CommRing R] [DecidableEq R] {φ : ℤ →+* R} (hw : 0 < w) (hφ : Blind w m φ) {p : List ℤ}
    (hp : Valid w p) {e : ℕ} {c : List ℤ} (h : (checkedPow w m p (e + 1)).bind id = some c) :
    Valid w c ∧ (listPoly c).map φ = (listPoly p ^ (e + 1)).map φ := by
  unfold checkedPow at h
  rw [if_neg (by omega), if_neg (by omega)] at h
  split_ifs at h with h1
  · obtain rfl : e = 0 := by omega
    simp only [Option.bind_some, id, Option.some.injEq] at h
    subst h
    exact ⟨hp, by simp⟩
  · obtain ⟨o, ho, h⟩ := Option.bind_eq_some_iff.mp h
    simp only [id] at h
    subst h
    have he : ((e : ℤ) + 1).toNat = e + 1 := by omega
    rw [he] at ho
    obtain ⟨c', hc', hm⟩ := powLoop_hom hφ _ _ _ _ _ (lt_trans (Nat.lt_succ_self _) Nat.lt_two_pow_self)
      (by omega) ho
    simp only [Option.some.injEq] at hc'
    subst hc'
    exact ⟨powLoop_valid hw _ _ _ _ _ hp (by simp) ho, by simpa using hm⟩

theorem Tracks.step {R : Type} [CommRing R] [DecidableEq R] {φ : ℤ →+* R} (hw : 0 < w) (hφ : Blind w m φ)
    {rs : List (List ℤ)} {vs : List ℤ[X]} (h : Tracks φ w rs vs) {o : Op} (ho : ∀ p, o = .lit p → Valid w p)
    {c : List ℤ} (hc : o.run w m rs = some c) : Tracks φ w (rs ++ [c]) (vs ++ [o.value vs]) := by
  cases o with
  | lit p =>
    simp only [Op.run, Option.some.injEq] at hc
    subst hc
    exact h.snoc (ho _ rfl) rfl
  | add i j =>
    refine h.snoc (add_valid hw _ _ _ hc) ?_
    simpa only [Op.value, h.eq, Polynomial.map_add, Polynomial.map_sub, Polynomial.map_neg, Polynomial.map_mul,
      map_C] using add_hom hφ _ _ _ hc
  | sub i j =>
    refine h.snoc (sub_valid hw _ _ _ hc) ?_
    simpa only [Op.value, h.eq, Polynomial.map_add, Polynomial.map_sub, Polynomial.map_neg, Polynomial.map_mul,
      map_C] using sub_hom hφ _ _ _ hc
  | neg i =>
    refine h.snoc (neg_valid hw _ _ hc) ?_
    simpa only [Op.value, h.eq, Polynomial.map_add, Polynomial.map_sub, Polynomial.map_neg, Polynomial.map_mul,
      map_C] using neg_hom hφ _ _ hc
  | mul i j =>
    refine h.snoc (mul_valid hw _ _ _ hc) ?_
    simpa only [Op.value, h.eq, Polynomial.map_add, Polynomial.map_sub, Polynomial.map_neg, Polynomial.map_mul,
      map_C] using mul_hom hφ _ _ _ hc
  | addCoeff i r =>
    refine h.snoc (addSubSingle_valid hw _ _ (h.valid i) _ _ hc) ?_
    simpa only [Op.value, h.eq, Polynomial.map_add, Polynomial.map_sub, Polynomial.map_neg, Polynomial.map_mul,
      map_C] using addCoeff_hom hφ _ _ _ hc
  | subCoeff i r =>
    refine h.snoc (addSubSingle_valid hw _ _ (h.valid i) _ _ hc) ?_
    simpa only [Op.value, h.eq, Polynomial.map_add, Polynomial.map_sub, Polynomial.map_neg, Polynomial.map_mul,
      map_C] using subCoeff_hom hφ _ _ _ hc
  | mulCoeff i r =>
    refine h.snoc (mulCoeff_valid hw _ _ _ hc) ?_
    simpa only [Op.value, h.eq, Polynomial.map_add, Polynomial.map_sub, Polynomial.map_neg, Polynomial.map_mul,
      map_C] using mulCoeff_hom hφ _ _ _ hc
  | powSucc i e =>
    obtain ⟨h1, h2⟩ := pow_hom hw hφ (h.valid i) hc
    refine h.snoc h1 ?_
    simpa only [Op.value, h.eq, Polynomial.map_pow] using h2
  | derivative i =>
    refine h.snoc (derivative_valid hw _ _ hc) ?_
    simpa only [Op.value, h.eq, ← Polynomial.derivative_map, Polynomial.map_add] using derivative_hom hφ _ _ hc

theorem Tracks.runFrom {R : Type} [CommRing R] [DecidableEq R] {φ : ℤ →+* R} (hw : 0 < w) (hφ : Blind w m φ)
    (prog : List Op) : ∀ (rs : List (List ℤ)) (vs : List ℤ[X]) (out : List (List ℤ)), Typed w prog →
      Tracks φ w rs vs → MachinePoly.runFrom w m rs prog = some out → Tracks φ w out (valuesFrom vs prog) := by
  induction prog with
  | nil =>
    intro rs vs out _ h hr
    simp only [MachinePoly.runFrom, Option.some.injEq] at hr
    subst hr
    exact h
  | cons o os ih =>
    intro rs vs out ht h hr
    simp only [MachinePoly.runFrom, bind, Option.bind_eq_some_iff] at hr
    obtain ⟨c, h1, h2⟩ := hr
    exact ih _ _ _ (fun p hp => ht p (List.mem_cons_of_mem _ hp))
      (h.step hw hφ (fun p hp => ht p (by simp [hp])) h1) h2

theorem op_wraps (o : Op) (ho : ∀ i, o ≠ .derivative i) (rs : List (List ℤ)) :
    ∃ c, o.run w .wraps rs = some c := by
  cases o with
  | lit p => exact ⟨p, rfl⟩
  | add i j =>
    obtain ⟨c, hc⟩ := addSubElems_wraps (w := w) (· + ·) (rs.getD i []) (rs.getD j [])
    exact ⟨normalize c, by simp only [Op.run, add, hc, Option.map_some]⟩
  | sub i j =>
    obtain ⟨c, hc⟩ := addSubElems_wraps (w := w) (· - ·) (rs.getD i []) (rs.getD j [])
    exact ⟨normalize c, by simp only [Op.run, sub, hc, Option.map_some]⟩
  | neg i =>
    obtain ⟨c, hc⟩ := mapM_wraps (w := w) (fun c => -c) (rs.getD i [])
    exact ⟨normalize c, by simp only [Op.run, neg, hc, Option.map_some]⟩
  | mul i j => exact mul_wraps _ _
  | addCoeff i r =>
    simp only [Op.run]
    cases rs.getD i [] <;> simp [addCoeff, addSubSingle, fit_wraps]
  | subCoeff i r =>
    simp only [Op.run]
    cases rs.getD i [] <;> simp [subCoeff, addSubSingle, fit_wraps]
  | mulCoeff i r =>
    obtain ⟨c, hc⟩ := mapM_wraps (w := w) (fun c => c * r) (rs.getD i [])
    exact ⟨normalize c, by simp only [Op.run, mulCoeff, hc, Option.map_some]⟩
  | powSucc i e =>
    simp only [Op.run, checkedPow]
    rw [if_neg (by omega), if_neg (by omega)]
    split_ifs with h1
    · exact ⟨_, rfl⟩
    · obtain ⟨o, ho⟩ := powLoop_wraps (w := w) (((e : ℤ) + 1).toNat + 1) (rs.getD i []) ((e : ℤ) + 1).toNat none
      have := powLoop_isSome _ _ _ _ _ (by omega) (Nat.lt_succ_self _) ho
      obtain ⟨d, rfl⟩ := Option.ne_none_iff_exists'.mp this
      exact ⟨d, by rw [ho]; rfl⟩
  | derivative i => exact absurd rfl (ho i)

theorem runFrom_wraps (prog : List Op) : (∀ i, Op.derivative i ∉ prog) → ∀ rs : List (List ℤ),
    ∃ out, runFrom w .wraps rs prog = some out := by
  induction prog with
  | nil => intro _ rs; exact ⟨rs, rfl⟩
  | cons o os ih =>
    intro h rs
    obtain ⟨c, hc⟩ := op_wraps (w := w) o (fun i hi => h i (by simp [hi])) rs
    obtain ⟨out, ho⟩ := ih (fun i hi => h i (List.mem_cons_of_mem _ hi)) (rs ++ [c])
    exact ⟨out, by rw [runFrom, hc]; exact ho⟩

/-! ## wider types -/

theorem op_agree {w' : ℕ} {m' : Overflow} (h : Refines w m w' m') (o : Op) (rs : List (List ℤ)) {c : List ℤ}
    (hc : o.run w m rs = some c) : o.run w' m' rs = some c := by
  cases o with
  | lit p => exact hc
  | add i j => exact add_agree h hc
  | sub i j => exact sub_agree h hc
  | neg i => exact neg_agree h hc
  | mul i j => exact mul_agree h hc
  | addCoeff i r => exact addSubSingle_agree h hc
  | subCoeff i r => exact addSubSingle_agree h hc
  | mulCoeff i r => exact mulCoeff_agree h hc
  | powSucc i e =>
    obtain ⟨o, h1, h2⟩ := Option.bind_eq_some_iff.mp hc
    exact Option.bind_eq_some_iff.mpr ⟨o, checkedPow_agree h h1, h2⟩
  | derivative i => exact derivative_agree h hc

theorem runFrom_agree {w' : ℕ} {m' : Overflow} (h : Refines w m w' m') (prog : List Op) :
    ∀ (rs out : List (List ℤ)), runFrom w m rs prog = some out → runFrom w' m' rs prog = some out := by
  induction prog with
  | nil => intro rs out hr; exact hr
  | cons o os ih =>
    intro rs out hr
    simp only [runFrom, bind, Option.bind_eq_some_iff] at hr
    obtain ⟨c, h1, h2⟩ := hr
    rw [runFrom, op_agree h o rs h1]
    exact ih _ _ h2

open Filter

theorem const_ev {α : Type} {F : ℕ → Option α} (hm : ∀ w w' x, w ≤ w' → F w = some x → F w' = some x)
    (h : ∀ᶠ w in atTop, ∃ x, F w = some x) : ∃ x, ∀ᶠ w in atTop, F w = some x := by
  obtain ⟨w, x, hx⟩ := h.exists
  exact ⟨x, eventually_atTop.mpr ⟨w, fun w' hw' => hm w w' x hw' hx⟩⟩

theorem coeff_ev (q : ℤ[X]) : ∀ᶠ w in atTop, ∀ n, InRange w (q.coeff n) := by
  have h := (eventually_all_finset (l := atTop) q.support (p := fun n (w : ℕ) => InRange w (q.coeff n))).mpr
    fun n _ => inRange_ev _
  filter_upwards [h, inRange_ev 0] with w h1 h2 n
  by_cases hn : n ∈ q.support
  · exact h1 n hn
  · rw [notMem_support_iff.mp hn]; exact h2

theorem some_of_ne_none {α : Type} {o : Option α} (h : ¬ o = none) : ∃ x, o = some x := Option.ne_none_iff_exists'.mp h

theorem mul_ev (l r : List ℤ) : ∃ c, ∀ᶠ w in atTop, mul w .panics l r = some c := by
  refine const_ev (fun w w' x h => mul_agree (refines_wider h)) ?_
  have h : ∀ᶠ w in atTop, ∀ k ∈ Finset.range l.length, ∀ j ∈ Finset.range r.length,
      InRange w (l.getD k 0 * r.getD j 0) ∧ InRange w ((listPoly (l.take (k + 1)) * listPoly r).coeff (k + j)) := by
    refine (eventually_all_finset _).mpr fun k _ => (eventually_all_finset _).mpr fun j _ => ?_
    exact (inRange_ev _).and (inRange_ev _)
  filter_upwards [h] with w hw
  refine Option.isSome_iff_exists.mp ((mul_isSome l r).mpr fun k hk j hj => hw k (by simpa using hk) j (by simpa using hj))

theorem polyPowLoop_ev (fuel : ℕ) : ∀ (base : List ℤ) (e : ℕ) (r : Option (List ℤ)), ∃ c, ∀ᶠ w in atTop,
    Poly.powLoop (mul w .panics) fuel base e r = some c := by
  induction fuel with
  | zero => intro base e r; exact ⟨r, Eventually.of_forall fun w => rfl⟩
  | succ fuel ih =>
    intro base e r
    have hs : ∃ r', ∀ᶠ w in atTop, Poly.powStep (mul w .panics) (e % 2 == 1) base r = some r' := by
      unfold Poly.powStep
      by_cases ho : (e % 2 == 1) = true
      · cases r with
        | none => exact ⟨some base, Eventually.of_forall fun w => by rw [if_pos ho]⟩
        | some v =>
          obtain ⟨c, hc⟩ := mul_ev v base
          refine ⟨some c, ?_⟩
          filter_upwards [hc] with w hw
          rw [if_pos ho]
          simp only [hw, Option.map_some]
      · exact ⟨r, Eventually.of_forall fun w => by rw [if_neg ho]⟩
    obtain ⟨r', hs⟩ := hs
    by_cases h2 : e / 2 = 0
    · refine ⟨r', ?_⟩
      filter_upwards [hs] with w hw
      rw [Poly.powLoop, hw]
      simp only [h2, if_true]
    · obtain ⟨b, hb⟩ := mul_ev base base
      obtain ⟨c, hc⟩ := ih b (e / 2) r'
      refine ⟨c, ?_⟩
      filter_upwards [hs, hc, hb] with w hw hc hb
      rw [Poly.powLoop, hw]
      simp only [h2, if_false, hb]
      exact hc

theorem op_ev (o : Op) (rs : List (List ℤ)) (hr : ∀ i, Norm (rs.getD i [])) :
    ∃ c, ∀ᶠ w in atTop, o.run w .panics rs = some c := by
  refine const_ev (fun w w' x h => op_agree (refines_wider h) o rs) ?_
  cases o with
  | lit p => exact Eventually.of_forall fun w => ⟨p, rfl⟩
  | add i j =>
    filter_upwards [coeff_ev (listPoly (rs.getD i []) + listPoly (rs.getD j [])), valid_ev (hr i), valid_ev (hr j)]
      with w h h1 h2
    refine some_of_ne_none fun hn => ?_
    obtain ⟨n, hn⟩ := (C83_panics_iff w (by omega) _ _ h1.2 h2.2 0 (zero_fits (by omega))).1.mp hn
    exact hn (h n)
  | sub i j =>
    filter_upwards [coeff_ev (listPoly (rs.getD i []) - listPoly (rs.getD j [])), valid_ev (hr i), valid_ev (hr j)]
      with w h h1 h2
    refine some_of_ne_none fun hn => ?_
    obtain ⟨n, hn⟩ := (C83_panics_iff w (by omega) _ _ h1.2 h2.2 0 (zero_fits (by omega))).2.1.mp hn
    exact hn (h n)
  | neg i =>
    filter_upwards [mapM_fit_ev (fun c => -c) (rs.getD i [])] with w h
    simp only [Op.run, neg, h, Option.map_some]
    exact ⟨_, rfl⟩
  | mul i j =>
    obtain ⟨c, hc⟩ := mul_ev (rs.getD i []) (rs.getD j [])
    filter_upwards [hc] with w h
    exact ⟨c, h⟩
  | addCoeff i r =>
    filter_upwards [coeff_ev (listPoly (rs.getD i []) + C r), valid_ev (hr i), inRange_ev r] with w h h1 h2
    refine some_of_ne_none fun hn => ?_
    exact (C83_panics_iff w (by omega) _ _ h1.2 h1.2 r h2).2.2.2.1.mp hn (h 0)
  | subCoeff i r =>
    filter_upwards [coeff_ev (listPoly (rs.getD i []) - C r), valid_ev (hr i), inRange_ev r] with w h h1 h2
    refine some_of_ne_none fun hn => ?_
    exact (C83_panics_iff w (by omega) _ _ h1.2 h1.2 r h2).2.2.2.2.1.mp hn (h 0)
  | mulCoeff i r =>
    filter_upwards [mapM_fit_ev (fun c => c * r) (rs.getD i [])] with w h
    simp only [Op.run, mulCoeff, h, Option.map_some]
    exact ⟨_, rfl⟩
  | powSucc i e =>
    by_cases h1 : (e : ℤ) + 1 = 1
    · refine Eventually.of_forall fun w => ⟨rs.getD i [], ?_⟩
      simp only [Op.run, checkedPow]
      rw [if_neg (by omega), if_neg (by omega), if_pos h1]
      rfl
    · obtain ⟨c, hc⟩ := polyPowLoop_ev (((e : ℤ) + 1).toNat + 1) (rs.getD i []) ((e : ℤ) + 1).toNat none
      filter_upwards [hc] with w h
      obtain ⟨d, rfl⟩ := Option.ne_none_iff_exists'.mp (powLoop_isSome _ _ _ _ _ (by omega) (Nat.lt_succ_self _) h)
      refine ⟨d, ?_⟩
      simp only [Op.run, checkedPow]
      rw [if_neg (by omega), if_neg (by omega), if_neg h1, h]
      rfl
  | derivative i =>
    obtain ⟨q, hq, -⟩ := derivative_ev (rs.getD i [])
    filter_upwards [hq] with w h
    exact ⟨q, h⟩

theorem runFrom_ev (prog : List Op) : (∀ p, Op.lit p ∈ prog → Norm p) → ∀ rs : List (List ℤ),
    (∀ i, Norm (rs.getD i [])) → ∃ out, ∀ᶠ w in atTop, runFrom w .panics rs prog = some out := by
  induction prog with
  | nil => intro _ rs _; exact ⟨rs, Eventually.of_forall fun w => rfl⟩
  | cons o os ih =>
    intro h rs hr
    obtain ⟨c, hc⟩ := op_ev o rs hr
    have hn : Norm c := by
      have hv : ∀ᶠ w in atTop, ∀ i ∈ Finset.range rs.length, 1 < w ∧ Valid w (rs.getD i []) :=
        (eventually_all_finset _).mpr fun i _ => valid_ev (hr i)
      have hl : ∀ᶠ w in atTop, ∀ p, o = .lit p → Valid w p := by
        cases o with
        | lit p =>
          filter_upwards [valid_ev (h p (by simp))] with w hw q hq
          cases hq
          exact hw.2
        | _ => exact Eventually.of_forall fun w p hp => by cases hp
      obtain ⟨w, h1, h2, h3, h4⟩ := (hc.and (hv.and (hl.and (eventually_gt_atTop 1)))).exists
      have hv' : ∀ i, Valid w (rs.getD i []) := by
        intro i
        by_cases hi : i < rs.length
        · exact (h2 i (by simpa using hi)).2
        · rw [List.getD_eq_getElem?_getD, List.getElem?_eq_none (by omega)]; exact valid_nil
      have ht : Tracks (RingHom.id ℤ) w rs (rs.map listPoly) :=
        ⟨by simp, fun i => by
          by_cases hi : i < rs.length
          · simp [List.getD_eq_getElem?_getD, hi]
          · simp [List.getD_eq_getElem?_getD, hi], hv'⟩
      have := (ht.step (by omega) (blind_panics w) h3 h1).valid rs.length
      rw [getD_snoc, if_pos rfl] at this
      exact this.2
    obtain ⟨out, ho⟩ := ih (fun p hp => h p (List.mem_cons_of_mem _ hp)) (rs ++ [c]) (fun i => by
      rw [getD_snoc]
      split_ifs
      · exact hn
      · exact hr i)
    exact ⟨out, by
      filter_upwards [hc, ho] with w e1 e2
      rw [runFrom, e1]; exact e2⟩

end MachinePoly

end Algebraics
