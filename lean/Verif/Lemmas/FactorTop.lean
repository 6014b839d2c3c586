import Verif.Lemmas.FactorIrr

/-!
# Lemmas about factoring integer polynomials: irreducible factors, the whole function
-/

set_option linter.unusedSectionVars false

namespace Algebraics

theorem FTree.Ok.leaf_unit {n : ℕ} {t : FTree n} (h : t.Ok) : ∀ a ∈ t.leaves, IsUnit a.toPoly.leadingCoeff := by
  induction t with
  | leaf f =>
    intro a ha
    rw [FTree.leaves, List.mem_singleton] at ha
    rw [ha]; exact h
  | node l r d p lb rb ihl ihr =>
    intro a ha
    rw [FTree.leaves, List.mem_append] at ha
    rcases ha with ha | ha
    · exact ihl h.1 a ha
    · exact ihr h.2.1 a ha

/-- the leading coefficients of the leaves come from natural numbers of product `v * w` -/
theorem FTree.Lcs.nat_list {n : ℕ} {t : FTree n} (v w : ℕ) (h : t.Lcs v w) :
    ∃ L : List ℕ, L.prod = v * w ∧
      (t.leaves.map fun g => g.toPoly.leadingCoeff).Perm (L.map fun x : ℕ => (x : ZMod n)) := by
  obtain ⟨rest, h1, h2⟩ := FTree.Lcs.leaf_list v w h
  have hrest : rest = (List.replicate rest.length 1).map fun x : ℕ => (x : ZMod n) := by
    rw [List.map_replicate, Nat.cast_one, List.eq_replicate_iff]
    exact ⟨rfl, h1⟩
  rcases h2 with h2 | h2
  · refine ⟨(v * w) :: List.replicate rest.length 1, by simp, ?_⟩
    rw [List.map_cons, ← hrest]; push_cast; exact h2
  · refine ⟨v :: w :: List.replicate rest.length 1, by simp, ?_⟩
    rw [List.map_cons, List.map_cons, ← hrest]; exact h2

namespace Poly

open Polynomial

theorem perm_append_map {α β : Type} (f : α → β) (L : List α) (A B : List β) (h : (A ++ B).Perm (L.map f)) :
    ∃ A' B', L.Perm (A' ++ B') ∧ A.Perm (A'.map f) := by
  obtain ⟨A1, h1, h2⟩ := (List.sublist_append_left A B).subperm.trans h.subperm
  obtain ⟨A', h3, rfl⟩ := List.sublist_map_iff.mp h2
  obtain ⟨B', h4⟩ := h3.exists_perm_append
  exact ⟨A', B', h4, h1.symm⟩

theorem const_prod {R : Type} [CommRing R] (l : List R[X]) (h : ∀ a ∈ l, ∃ c, IsUnit c ∧ a = C c) :
    ∃ c, IsUnit c ∧ l.prod = C c := by
  induction l with
  | nil => exact ⟨1, isUnit_one, by simp⟩
  | cons a l ih =>
    obtain ⟨c, h1, h2⟩ := ih fun b hb => h b (by simp [hb])
    obtain ⟨d, h3, h4⟩ := h a (by simp)
    exact ⟨d * c, h3.mul h1, by rw [List.prod_cons, h2, h4, C_mul]⟩

/-- the state with which the search starts, but for the leading coefficients -/
theorem initial_st (f : Poly ℤ) (hpp : PP f.toPoly) (hd : f.toPoly.natDegree ≠ 0) (p : ℕ) [Fact p.Prime]
    (hp : GoodPrime f p) (e : ℕ) (he : e ≠ 0)
    (t : FTree (p ^ e)) (h1 : t.Ok) (h2 : t.product = modPoly (p ^ e) f)
    (l : List (Poly (ZMod p))) (h5 : (t.leaves.map (setModulus p)).Perm l)
    (r : List (Poly (ZMod p)))
    (hl : l = (if (modPoly p f).toPoly.leadingCoeff = 1 then []
          else [ofCoeffs [(modPoly p f).toPoly.leadingCoeff]]) ++ r)
    (hr : ∀ g ∈ r, g.toPoly.Monic ∧ Irreducible g.toPoly) :
    (let E := t.leaves.filter fun g => !decide (g.degree = some 0)
     St he f.toPoly E ∧ E ≠ [] ∧ (∃ K, t.leaves.Perm (E ++ K)) ∧
      IsUnit ((f.toPoly.leadingCoeff : ℤ) : ZMod (p ^ e)) ∧
      ∀ a ∈ E, redp he a.toPoly.leadingCoeff = 1) := by
  obtain ⟨p1, p2, p3, p4, p5⟩ := hp
  have hnt := nontriv (p := p) he
  have i1 : NeZero (p ^ e) := ⟨pow_ne_zero _ p1.ne_zero⟩
  set E := t.leaves.filter fun g => !decide (g.degree = some 0) with hE
  set K := t.leaves.filter fun g => decide (g.degree = some 0) with hK
  have hperm : t.leaves.Perm (E ++ K) := by
    have := (List.filter_append_perm (fun g : Poly (ZMod (p ^ e)) => decide (g.degree = some 0)) t.leaves).symm
    exact this.trans List.perm_append_comm
  have hmemE : ∀ a ∈ E, a ∈ t.leaves ∧ a.toPoly.natDegree ≠ 0 := by
    intro a ha
    obtain ⟨ha1, ha2⟩ := List.mem_filter.mp ha
    refine ⟨ha1, fun h0 => ?_⟩
    have hne : a.toPoly ≠ 0 := leadingCoeff_ne_zero.mp (h1.leaf_unit a ha1).ne_zero
    rw [degree_eq, if_neg hne, h0] at ha2
    simp at ha2
  have hmemK : ∀ a ∈ K, ∃ c, IsUnit c ∧ a.toPoly = C c := by
    intro a ha
    obtain ⟨ha1, ha2⟩ := List.mem_filter.mp ha
    have hu := h1.leaf_unit a ha1
    have hne : a.toPoly ≠ 0 := leadingCoeff_ne_zero.mp hu.ne_zero
    rw [degree_eq, if_neg hne] at ha2
    simp only [Option.some.injEq, decide_eq_true_eq] at ha2
    exact ⟨a.toPoly.leadingCoeff, hu, by
      rw [leadingCoeff, ha2]; exact eq_C_of_natDegree_eq_zero ha2⟩
  have hunit : ∀ a ∈ E, IsUnit a.toPoly.leadingCoeff := fun a ha => h1.leaf_unit a (hmemE a ha).1
  have hset : ∀ a : Poly (ZMod (p ^ e)), (setModulus p a).toPoly = a.toPoly.map (redp he) :=
    fun a => setModulus_down _ a
  have hprod : f.toPoly.map (Int.castRingHom (ZMod (p ^ e))) = (E.map toPoly).prod * (K.map toPoly).prod := by
    rw [← toPoly_modPoly, ← h2, h1.product_eq, FTree.leafProduct, (hperm.map toPoly).prod_eq,
      List.map_append, List.prod_append]
  obtain ⟨c, hc, hcK⟩ := const_prod (K.map toPoly) (by
    intro a ha
    obtain ⟨b, hb, rfl⟩ := List.mem_map.mp ha
    exact hmemK b hb)
  have hlead : IsUnit ((f.toPoly.leadingCoeff : ℤ) : ZMod (p ^ e)) := by
    apply redp_unit he
    rw [map_intCast, isUnit_iff_ne_zero, Ne, ZMod.intCast_zmod_eq_zero_iff_dvd]
    exact p4
  have hst : St he f.toPoly E := by
    refine ⟨hpp, hlead, hunit, ?_, ?_, ⟨c, hc, by rw [hprod, hcK, mul_comm]⟩⟩
    · intro a ha
      obtain ⟨ha1, ha2⟩ := hmemE a ha
      rw [← hset]
      have hm : setModulus p a ∈ l := h5.mem_iff.mp (List.mem_map_of_mem ha1)
      rw [hl] at hm
      rcases List.mem_append.mp hm with hm | hm
      · exfalso
        by_cases hone : (modPoly p f).toPoly.leadingCoeff = 1
        · rw [if_pos hone] at hm; simp at hm
        · rw [if_neg hone, List.mem_singleton] at hm
          apply ha2
          rw [← (map_lead he a.toPoly (hunit a ha)).1, ← hset, hm, toPoly_ofCoeffs]
          simp
      · exact (hr _ hm).2
    · have hEm : (E.map fun a => a.toPoly.map (redp he)).prod = (E.map toPoly).prod.map (redp he) := by
        rw [Polynomial.map_list_prod, List.map_map]; rfl
      rw [hEm]
      have hdvd : (E.map toPoly).prod.map (redp he) ∣ f.toPoly.map (Int.castRingHom (ZMod p)) := by
        have hm : f.toPoly.map (Int.castRingHom (ZMod p)) =
            (f.toPoly.map (Int.castRingHom (ZMod (p ^ e)))).map (redp he) := by
          rw [Polynomial.map_map]; congr 1; exact RingHom.ext_int _ _
        rw [hm, hprod, Polynomial.map_mul]
        exact Dvd.intro _ rfl
      exact p5.squarefree_of_dvd hdvd
  refine ⟨hst, ?_, ⟨K, hperm⟩, hlead, ?_⟩
  · show E ≠ []
    intro h0
    rw [h0, List.map_nil, List.prod_nil, one_mul, hcK] at hprod
    have := (cast_lead he f.toPoly hlead).1
    rw [hprod, natDegree_C] at this
    exact hd this.symm
  · intro a ha
    have hm : setModulus p a ∈ r := by
      obtain ⟨ha1, ha2⟩ := hmemE a ha
      have hm : setModulus p a ∈ l := h5.mem_iff.mp (List.mem_map_of_mem ha1)
      rw [hl] at hm
      rcases List.mem_append.mp hm with hm | hm
      · exfalso
        by_cases hone : (modPoly p f).toPoly.leadingCoeff = 1
        · rw [if_pos hone] at hm; simp at hm
        · rw [if_neg hone, List.mem_singleton] at hm
          apply ha2
          rw [← (map_lead he a.toPoly (hunit a ha)).1, ← hset, hm, toPoly_ofCoeffs]
          simp
      · exact hm
    have h9 := (hr _ hm).1
    rw [hset] at h9
    rw [← (map_lead he a.toPoly (hunit a ha)).2]
    exact h9

/-- the state with which the search starts -/
theorem initial_inv (f : Poly ℤ) (hpp : PP f.toPoly) (hd : f.toPoly.natDegree ≠ 0) (p : ℕ) [Fact p.Prime]
    (hp : GoodPrime f p) (e : ℕ) (he : e ≠ 0)
    (t : FTree (p ^ e)) (h1 : t.Ok) (h2 : t.product = modPoly (p ^ e) f)
    (l : List (Poly (ZMod p))) (h5 : (t.leaves.map (setModulus p)).Perm l)
    (r : List (Poly (ZMod p)))
    (hl : l = (if (modPoly p f).toPoly.leadingCoeff = 1 then []
          else [ofCoeffs [(modPoly p f).toPoly.leadingCoeff]]) ++ r)
    (hr : ∀ g ∈ r, g.toPoly.Monic ∧ Irreducible g.toPoly)
    (v w : ℕ) (hvw : f.toPoly.leadingCoeff = v * w) (hLcs : t.Lcs v w) :
    Inv he f (⟨f, t.leaves.filter fun g => !decide (g.degree = some 0), [], false⟩ : Search (p ^ e)) 1 := by
  have hnt := nontriv (p := p) he
  obtain ⟨hst, hne, ⟨K, hperm⟩, hlead, -⟩ := initial_st f hpp hd p hp e he t h1 h2 l h5 r hl hr
  refine ⟨hst, hne, dvd_rfl, ?_, ?_⟩
  · intro A B hAB
    obtain ⟨L, l1, l2⟩ := FTree.Lcs.nat_list v w hLcs
    have hperm2 : t.leaves.Perm (A ++ (B ++ K)) := by
      rw [← List.append_assoc]; exact hperm.trans (hAB.append_right K)
    have hperm3 := (hperm2.map fun g => g.toPoly.leadingCoeff).symm.trans l2
    rw [List.map_append] at hperm3
    obtain ⟨A', B', m1, m2⟩ := perm_append_map _ L _ _ hperm3
    have hAunit := (hst.prod_unit A B hAB).1
    have hlc : (A.map toPoly).prod.leadingCoeff = ((A'.prod : ℕ) : ZMod (p ^ e)) := by
      rw [(prod_lead _ (by
        intro a ha
        obtain ⟨b, hb, rfl⟩ := List.mem_map.mp ha
        exact hAunit b hb)).1, List.map_map]
      show (A.map fun g => g.toPoly.leadingCoeff).prod = _
      rw [m2.prod_eq, ← Nat.cast_list_prod]
    have hdv : A'.prod ∣ v * w := by
      rw [← l1, m1.prod_eq, List.prod_append]; exact Dvd.intro _ rfl
    have hpos : 0 < v * w := by
      have := hpp.2
      rw [hvw] at this
      exact_mod_cast this
    refine ⟨A'.prod, Nat.pos_of_dvd_of_pos hdv hpos, ?_, hlc⟩
    show ((A'.prod : ℕ) : ℤ) ≤ f.toPoly.leadingCoeff
    rw [hvw]
    exact_mod_cast Nat.le_of_dvd hpos hdv
  · intro g k hg hgk hgd A B hAB hF
    have := hF.ne_nil (lead_mul hlead hgk).1 hgd he
    exact List.length_pos_of_ne_nil this

/-- the leading coefficient is fit for the subset search: its residue divides it -/
theorem factorSquareFree_irreducible (choose : ℕ → List ℕ → ℕ) (hc : HeapOrder choose) (rng : ℕ → ℕ)
    (fuel pos : ℕ) (f : Poly ℤ) (hpp : PP f.toPoly)
    (hres : ∀ p, GoodPrime f p → f.toPoly.leadingCoeff % p ∣ f.toPoly.leadingCoeff)
    (r : List (Poly ℤ)) (pos' : ℕ) (h : factorSquareFree choose rng fuel pos f = .ok (r, pos')) :
    ∀ g ∈ r, g.toPoly ≠ 1 → Irreducible g.toPoly := by
  unfold factorSquareFree at h
  rw [degree_eq, if_neg hpp.ne_zero, Option.getD_some] at h
  by_cases hd : f.toPoly.natDegree ≤ 1
  · rw [if_pos hd] at h
    cases h
    intro g hg hg1
    rw [List.mem_singleton.mp hg] at hg1 ⊢
    refine hpp.irreducible (fun h0 => hg1 (hpp.const h0)) ?_
    intro a b ha hb hab
    rw [hab, natDegree_mul ha.ne_zero hb.ne_zero] at hd
    omega
  · rw [if_neg hd] at h
    obtain ⟨s1, -⟩ := selectPrime_spec f (2 ^ 31) 2 (by norm_num)
    cases hsel : selectPrime f (2 ^ 31) 2 with
    | none => rw [hsel] at h; cases h
    | some p =>
      have hp := s1 p hsel
      rw [hsel] at h
      simp only at h
      cases hm : modularFactors rng fuel pos (modPoly p f) with
      | error e => rw [hm] at h; cases h
      | ok lp =>
        obtain ⟨l, pos1⟩ := lp
        rw [hm] at h
        simp only at h
        obtain ⟨k, t, h1, h2, h3, h4, h5, ⟨r', h6, h7, -⟩, h8⟩ :=
          lifted_spec choose hc f (by omega) p hp rng fuel pos l pos1 hm
        have : Fact p.Prime := ⟨hp.1⟩
        rw [h4] at h
        have hv0 : 0 ≤ f.toPoly.leadingCoeff % p := Int.emod_nonneg _ (by exact_mod_cast hp.1.ne_zero)
        obtain ⟨v, hv⟩ := Int.eq_ofNat_of_zero_le hv0
        obtain ⟨w, hw⟩ := hres p hp
        have hvpos : 0 < (v : ℤ) := by
          rcases Nat.eq_zero_or_pos v with rfl | h0
          · exfalso
            rw [hv] at hw
            have := hpp.2
            simp at hw
            rw [hw] at this
            simp at this
          · exact_mod_cast h0
        have hw0 : 0 ≤ w := by
          by_contra hneg
          have h9 := hpp.2
          rw [hw, hv] at h9
          nlinarith
        obtain ⟨w, rfl⟩ := Int.eq_ofNat_of_zero_le hw0
        rw [hv] at hw
        have hLcs := h8 v w (by rw [hw]; push_cast; rfl) hv
        have he : 2 ^ k ≠ 0 := by positivity
        have hinv := initial_inv f hpp (by omega) p hp (2 ^ k) he t h1 h2 l h5 r' h6 h7 v w hw hLcs
        have hcont : f.content intGcd = 1 := by
          obtain ⟨c1, c2, -⟩ := content_spec f
          obtain ⟨-, -, c4⟩ := c2 hpp.ne_zero
          have hu : IsUnit (f.content intGcd) := by
            apply hpp.1
            rw [C_dvd_iff_dvd_coeff]
            exact (c1 _).mp dvd_rfl
          have := c4.mpr hpp.2
          rcases Int.isUnit_iff.mp hu with h | h
          · exact h
          · omega
        unfold recombine at h
        simp only at h
        rw [hcont, if_pos rfl] at h
        generalize hsl : searchLoop _ 0 _ = o at h
        cases o with
        | none => cases h
        | some s =>
          simp only at h
          cases h
          obtain ⟨q1, q2⟩ := searchLoop_irreducible f h3 hpp.ne_zero _ 0 _ s (by simpa using hinv) (by simp)
            (by simp) hsl
          intro g hg _
          rcases List.mem_append.mp hg with hg | hg
          · exact q1 g hg
          · rw [List.mem_singleton.mp hg]; exact q2

theorem factorLoop_irreducible (choose : ℕ → List ℕ → ℕ) (hc : HeapOrder choose) (rng : ℕ → ℕ) (fuel : ℕ)
    (gs : List (Poly ℚ)) : ∀ (index pos : ℕ),
    (∀ g ∈ gs, ∃ z : Poly ℤ, g.toPoly = z.toPoly.map (Int.castRingHom ℚ) ∧ PP z.toPoly ∧
      ∀ p, GoodPrime z p → z.toPoly.leadingCoeff % p ∣ z.toPoly.leadingCoeff) →
    ∀ r pos', factorLoop choose rng fuel index gs pos = .ok (r, pos') →
      ∀ e ∈ r, Irreducible e.1.toPoly := by
  induction gs with
  | nil =>
    intro index pos _ r pos' h
    cases h
    simp
  | cons g gs ih =>
    intro index pos hz r pos' h
    obtain ⟨z, z1, z2, z3⟩ := hz g (by simp)
    have hel : ofCoeffs (ratElements g) = z := toPoly_injective (ratElements_spec g z.toPoly z1)
    unfold factorLoop at h
    rw [hel] at h
    cases h1 : factorSquareFree choose rng fuel pos z with
    | error e => rw [h1] at h; cases h
    | ok lp =>
      obtain ⟨l, pos1⟩ := lp
      rw [h1] at h
      simp only at h
      have hi := factorSquareFree_irreducible choose hc rng fuel pos z z2 z3 l pos1 h1
      cases h2 : factorLoop choose rng fuel (index + 1) gs pos1 with
      | error e => rw [h2] at h; cases h
      | ok rp =>
        obtain ⟨r2, pos2⟩ := rp
        rw [h2] at h
        simp only at h
        cases h
        intro e he
        rcases List.mem_append.mp he with he | he
        · obtain ⟨q, hq, rfl⟩ := List.mem_map.mp he
          obtain ⟨hq1, hq2⟩ := List.mem_filter.mp hq
          refine hi q hq1 fun h0 => ?_
          rw [Bool.not_eq_true'] at hq2
          rw [(isOne_iff q).mpr h0] at hq2
          cases hq2
        · exact ih (index + 1) pos1 (fun g hg => hz g (by simp [hg])) r2 _ h2 e he

/-- the square-free pieces, as primitive integer polynomials -/
theorem factor_pieces (choose : ℕ → List ℕ → ℕ) (rng : ℕ → ℕ) (fuel pos : ℕ) (f : Poly ℤ) (r : Factors) (pos' : ℕ)
    (h : factor choose rng fuel pos f = .ok (r, pos')) :
    r.factors = [] ∨ ∃ gs, factorLoop choose rng fuel 0 gs pos = .ok (r.factors, pos') ∧
      ∀ g ∈ gs, ∃ z : Poly ℤ, g.toPoly = z.toPoly.map (Int.castRingHom ℚ) ∧ PP z.toPoly ∧ z.toPoly ∣ f.toPoly ∧
        Squarefree g.toPoly := by
  by_cases hf : f.toPoly = 0
  · have hfac : factor choose rng fuel pos f = .ok (⟨0, []⟩, pos) := by
      have : f = ofCoeffs [] := toPoly_injective (by rw [hf, toPoly_ofCoeffs]; rfl)
      rw [this]
      rfl
    rw [hfac] at h
    cases h
    exact Or.inl rfl
  · obtain ⟨z, z1, z2, l, z3, z4⟩ := factor_content f hf
    unfold factor at h
    simp only at h
    rw [z3] at h
    simp only at h
    have hinj : Function.Injective (Int.castRingHom ℚ) := Int.cast_injective
    have hdeg := natDegree_map_eq_of_injective hinj z
    by_cases hd : z.natDegree = 0
    · rw [C24_yun_constant _ (by rw [z4, hdeg]; exact hd)] at h
      simp only [factorLoop] at h
      cases h
      exact Or.inl rfl
    · obtain ⟨c, gs, y1, -, y3, y4, -, y6, -⟩ := C24_yun
        (ofCoeffs (l.map fun v : ℤ => (v : ℚ))) (by rw [z4, hdeg]; exact hd)
      rw [y1] at h
      simp only at h
      refine Or.inr ⟨gs, ?_, ?_⟩
      · cases hl : factorLoop choose rng fuel 0 gs pos with
        | error e => rw [hl] at h; cases h
        | ok rp =>
          rw [hl] at h
          cases h
          rfl
      · intro g hg
        obtain ⟨sq, w, w1, w2, w3⟩ := y4 g hg
        have hsymm : (toPolyEquiv (T := ℤ).symm w).toPoly = w := (toPolyEquiv (T := ℤ)).apply_symm_apply _
        refine ⟨toPolyEquiv (T := ℤ).symm w, by rw [hsymm]; exact w3, by rw [hsymm]; exact ⟨w1, w2⟩, ?_, sq⟩
        rw [hsymm, z2]
        refine Dvd.dvd.mul_left ?_ _
        rw [w1.dvd_iff_fraction_map_dvd_fraction_map (K := ℚ)]
        show w.map (Int.castRingHom ℚ) ∣ z.map (Int.castRingHom ℚ)
        rw [← w3, ← z4, y6]
        refine Dvd.dvd.mul_left ?_ _
        obtain ⟨i, hi, rfl⟩ := List.getElem_of_mem hg
        refine Dvd.dvd.trans ?_ (Finset.dvd_prod_of_mem _ (Finset.mem_univ (⟨i, hi⟩ : Fin gs.length)))
        exact dvd_pow_self _ (by simp)

theorem factor_irreducible (choose : ℕ → List ℕ → ℕ) (hc : HeapOrder choose) (rng : ℕ → ℕ)
    (fuel pos : ℕ) (f : Poly ℤ)
    (hres : ∀ z : Poly ℤ, PP z.toPoly → z.toPoly ∣ f.toPoly → ∀ p, GoodPrime z p →
      z.toPoly.leadingCoeff % p ∣ z.toPoly.leadingCoeff)
    (r : Factors) (pos' : ℕ) (h : factor choose rng fuel pos f = .ok (r, pos')) :
    ∀ e ∈ r.factors, Irreducible e.1.toPoly := by
  rcases factor_pieces choose rng fuel pos f r pos' h with h1 | ⟨gs, h1, h2⟩
  · rw [h1]; simp
  · refine factorLoop_irreducible choose hc rng fuel gs 0 pos ?_ _ _ h1
    intro g hg
    obtain ⟨z, z1, z2, z3, -⟩ := h2 g hg
    exact ⟨z, z1, z2, hres z z2 z3⟩

end Poly
end Algebraics
