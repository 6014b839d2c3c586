import Verif.Lemmas.FactorComplete

/-!
# Lemmas about factoring integer polynomials: the subset search finds irreducible factors
-/

set_option linter.unusedSectionVars false

namespace Algebraics
namespace Poly

open Polynomial

section

variable {p e : ℕ} [Fact p.Prime] {he : e ≠ 0}

local instance inhabitedModular : Inhabited (Poly (ZMod (p ^ e))) := ⟨0⟩

theorem For.perm {A B : List (Poly (ZMod (p ^ e)))} {g : ℤ[X]} (h : A.Perm B) (hA : For A g) : For B g := by
  obtain ⟨u, h1, h2⟩ := hA
  exact ⟨u, h1, by rw [← (h.map toPoly).prod_eq]; exact h2⟩

theorem PP.right {I g k : ℤ[X]} (hI : PP I) (hg : PP g) (h : I = g * k) : PP k := by
  rcases hI.factor h with h1 | h1
  · exact h1.2
  · have h2 := h1.1.2
    have h3 := hg.2
    rw [leadingCoeff_neg] at h2
    omega

theorem PP.left_of_dvd {I g : ℤ[X]} (hI : PP I) (hg : PP g) (h : g ∣ I) : ∃ k, PP k ∧ I = g * k := by
  obtain ⟨k, hk⟩ := h
  exact ⟨k, hI.right hg hk, hk⟩

theorem PP.irreducible {I : ℤ[X]} (hI : PP I) (hd : I.natDegree ≠ 0)
    (h : ∀ g k, PP g → PP k → I = g * k → g.natDegree = 0 ∨ k.natDegree = 0) : Irreducible I := by
  refine ⟨fun hu => hd (natDegree_eq_zero_of_isUnit hu), ?_⟩
  intro a b hab
  rcases hI.factor hab with ⟨ha, hb⟩ | ⟨ha, hb⟩
  · rcases h a b ha hb hab with h1 | h1
    · left; rw [ha.const h1]; exact isUnit_one
    · right; rw [hb.const h1]; exact isUnit_one
  · rcases h (-a) (-b) ha hb (by rw [hab]; ring) with h1 | h1
    · left; rw [← IsUnit.neg_iff, ha.const h1]; exact isUnit_one
    · right; rw [← IsUnit.neg_iff, hb.const h1]; exact isUnit_one

/-- the candidate of the subset that stands for a factor is that factor -/
theorem candidate_exact (f : Poly ℤ) (hM : f.factorLimit.toNat < p ^ e * p ^ e) (hf : f.toPoly ≠ 0)
    (input : Poly ℤ) (l : List (Poly (ZMod (p ^ e)))) (st : St he input.toPoly l) (hdvd : input.toPoly ∣ f.toPoly)
    (g h : ℤ[X]) (hg : PP g) (hI : input.toPoly = g * h) (T : List ℕ) (hT : ∀ i ∈ T, i < l.length)
    (hF : For (T.map fun i => l.getD i default) g) (μ : ℕ) (hμ0 : 0 < μ) (hμ : (μ : ℤ) ≤ f.toPoly.leadingCoeff)
    (hl : ((T.map fun i => l.getD i default).map toPoly).prod.leadingCoeff = (μ : ZMod (p ^ e))) :
    ∃ r, candidate input l T = some r ∧ r.toPoly = g := by
  have hp : p.Prime := Fact.out
  have : NeZero (p ^ e) := ⟨pow_ne_zero _ hp.ne_zero⟩
  have hh : PP h := st.pp.right hg hI
  obtain ⟨k, hk⟩ := hdvd
  rw [hI] at hk
  obtain ⟨hug, huh⟩ := lead_mul st.lead hI
  obtain ⟨u, hu, hAu⟩ := hF
  have hlc : u * ((g.leadingCoeff : ℤ) : ZMod (p ^ e)) = μ := by
    rw [← hl, hAu, ← (cast_lead he g hug).2, leadingCoeff_mul', leadingCoeff_C]
    rw [leadingCoeff_C, (cast_lead he g hug).2]
    have := nontriv (p := p) he
    exact (hu.mul hug).ne_zero
  obtain ⟨P, r, c1, c2, c3⟩ := candidate_spec input l T hT
  have hprod : (T.map fun i => (l.getD i 0).toPoly).prod = C u * g.map (Int.castRingHom (ZMod (p ^ e))) := by
    rw [← hAu, List.map_map]; rfl
  have hP : P.toPoly = C (h.leadingCoeff * μ) * g := by
    ext i
    rw [c3, hprod, ← mul_assoc, ← C_mul, coeff_C_mul, coeff_C_mul, coeff_map]
    have h1 : ((input.toPoly.leadingCoeff : ℤ) : ZMod (p ^ e)) * u * Int.castRingHom (ZMod (p ^ e)) (g.coeff i) =
        ((h.leadingCoeff * (μ * g.coeff i) : ℤ) : ZMod (p ^ e)) := by
      rw [hI, leadingCoeff_mul]
      push_cast
      rw [← hlc, eq_intCast]; ring
    rw [h1, symmetric_intCast _ (by
      have := factor_bound f (p ^ e) hM g h k hf hk μ hμ i
      exact this)]
    ring
  have hc0 : h.leadingCoeff * (μ : ℤ) ≠ 0 := mul_ne_zero hh.2.ne' (by exact_mod_cast hμ0.ne')
  obtain ⟨r', c, d1, d2, d3, d4⟩ := primitivePart_pp P (by
    rw [hP]; exact mul_ne_zero (by rwa [Ne, C_eq_zero]) hg.ne_zero)
  rw [c2] at d1
  cases d1
  refine ⟨r, c1, ?_⟩
  rw [hP] at d4
  exact (PP.eq_of_C_mul hg d2 hc0 d4).symm

/-- a candidate stands for its subset -/
theorem candidate_for (input : Poly ℤ) (l : List (Poly (ZMod (p ^ e)))) (st : St he input.toPoly l)
    (T : List ℕ) (hT : ∀ i ∈ T, i < l.length) (hTp : T.Pairwise (· < ·)) (r : Poly ℤ)
    (hr : candidate input l T = some r) :
    For (T.map fun i => l.getD i default) r.toPoly := by
  have hp : p.Prime := Fact.out
  have : NeZero (p ^ e) := ⟨pow_ne_zero _ hp.ne_zero⟩
  have hnt := nontriv (p := p) he
  obtain ⟨P, r', c1, c2, c3⟩ := candidate_spec input l T hT
  rw [hr] at c1
  cases c1
  set A := T.map fun i => l.getD i default with hA
  have hprod : (T.map fun i => (l.getD i 0).toPoly).prod = (A.map toPoly).prod := by
    rw [hA, List.map_map]; rfl
  have hperm := foldr_eraseIdx_perm l T hTp hT
  have hAu := (st.prod_unit A _ hperm).2
  have hmap : P.toPoly.map (Int.castRingHom (ZMod (p ^ e))) =
      C ((input.toPoly.leadingCoeff : ℤ) : ZMod (p ^ e)) * (A.map toPoly).prod := by
    ext i
    rw [coeff_map, c3, hprod, eq_intCast, symmetric_cast]
  have hlead : IsUnit (P.toPoly.map (Int.castRingHom (ZMod (p ^ e)))).leadingCoeff := by
    rw [hmap, leadingCoeff_mul', leadingCoeff_C]
    · exact st.lead.mul hAu
    · rw [leadingCoeff_C]; exact (st.lead.mul hAu).ne_zero
  have hP : P.toPoly ≠ 0 := by
    intro h0
    rw [h0, Polynomial.map_zero, leadingCoeff_zero] at hlead
    exact hlead.ne_zero rfl
  obtain ⟨r', k, d1, d2, d3, d4⟩ := primitivePart_pp P hP
  rw [c2] at d1
  cases d1
  rw [d4, Polynomial.map_mul, map_C, eq_intCast] at hmap
  rw [d4, Polynomial.map_mul, map_C, eq_intCast, leadingCoeff, coeff_C_mul] at hlead
  have hk : IsUnit ((k : ℤ) : ZMod (p ^ e)) := isUnit_of_mul_isUnit_left hlead
  obtain ⟨w, hw⟩ := st.lead
  refine ⟨(↑w⁻¹ : ZMod (p ^ e)) * ((k : ℤ) : ZMod (p ^ e)), (Units.isUnit _).mul hk, ?_⟩
  rw [C_mul, mul_assoc, hmap, ← hw, ← mul_assoc, ← C_mul, Units.inv_mul, C_1, one_mul]

/-- what the search keeps -/
structure Inv (he : e ≠ 0) (f : Poly ℤ) (s : Search (p ^ e)) (n : ℕ) : Prop where
  st : St he s.input.toPoly s.modular
  ne : s.modular ≠ []
  dvd : s.input.toPoly ∣ f.toPoly
  mu : ∀ A B, s.modular.Perm (A ++ B) → ∃ μ : ℕ, 0 < μ ∧ (μ : ℤ) ≤ f.toPoly.leadingCoeff ∧
    (A.map toPoly).prod.leadingCoeff = (μ : ZMod (p ^ e))
  least : ∀ g k, PP g → s.input.toPoly = g * k → g.natDegree ≠ 0 →
    ∀ A B, s.modular.Perm (A ++ B) → For A g → n ≤ A.length

theorem Inv.stop {f : Poly ℤ} {s : Search (p ^ e)} {n : ℕ} (h : Inv he f s n) (hn : s.modular.length < n * 2) :
    Irreducible s.input.toPoly := by
  refine h.st.pp.irreducible (h.st.natDegree_ne h.ne) ?_
  intro g k hg hk hgk
  by_contra hc
  push Not at hc
  obtain ⟨A, B, h1, h2, h3⟩ := h.st.split g k hgk
  have h4 := h.least g k hg hgk hc.1 A B h1 h2
  have h5 := h.least k g hk (by rw [hgk, mul_comm]) hc.2 B A (h1.trans List.perm_append_comm) h3
  have h6 := h1.length_eq
  rw [List.length_append] at h6
  omega

theorem searchLoop_irreducible (f : Poly ℤ) (hM : f.factorLimit.toNat < p ^ e * p ^ e) (hf : f.toPoly ≠ 0)
    (fuel : ℕ) : ∀ (size : ℕ) (s s' : Search (p ^ e)),
    Inv he f s (if s.found = true then size else size + 1) → (s.found = true → 0 < size) →
    (∀ g ∈ s.factors, Irreducible g.toPoly) → searchLoop fuel size s = some s' →
    (∀ g ∈ s'.factors, Irreducible g.toPoly) ∧ Irreducible s'.input.toPoly := by
  induction fuel with
  | zero => intro size s s' _ _ _ h; cases h
  | succ fuel ih =>
    intro size s s' hinv hfd hall h
    unfold searchLoop at h
    simp only at h
    have hn0 : 0 < (if s.found = true then size else size + 1) := by
      by_cases hfo : s.found = true
      · rw [if_pos hfo]; exact hfd hfo
      · rw [if_neg hfo]; omega
    generalize hsz : (if s.found = true then size else size + 1) = n at h hinv hn0
    by_cases hstop : n * 2 > s.modular.length
    · rw [if_pos hstop] at h
      cases h
      exact ⟨hall, hinv.stop hstop⟩
    · rw [if_neg hstop] at h
      obtain ⟨L, hmem, -, hL⟩ := C50_subsets n 0 s.modular.length (by omega)
      rw [hL] at h
      rcases forSearch L { s with found := false } with ⟨h1, hnone⟩ | ⟨T, hT, s1, b, h1, h2⟩
      · rw [h1] at h
        refine ih n { s with found := false } s' ?_ (by simp) hall h
        refine ⟨hinv.st, hinv.ne, hinv.dvd, hinv.mu, ?_⟩
        intro g k hg hgk hd A B hAB hF
        have h3 := hinv.least g k hg hgk hd A B hAB hF
        show n + 1 ≤ A.length
        by_contra hlt
        obtain ⟨T, t1, t2, t3, t4⟩ := indices_of_perm s.modular A B hAB
        have hTL : T ∈ L := (hmem T).mpr ⟨by omega, t1, fun i hi => ⟨Nat.zero_le _, t2 i hi⟩⟩
        have hsn := hnone T hTL
        obtain ⟨μ, m1, m2, m3⟩ := hinv.mu A B hAB
        obtain ⟨r, r1, r2⟩ := candidate_exact f hM hf s.input s.modular hinv.st hinv.dvd g k hg hgk T t2
          (hF.perm t4.symm) μ m1 m2 (by rw [(t4.map toPoly).prod_eq]; exact m3)
        obtain ⟨q, c, hq⟩ := exactPseudoDiv_dvd s.input r (by rw [r2]; exact hg.ne_zero)
          (by rw [r2, hgk]; exact Dvd.intro _ rfl)
        obtain ⟨q', hq'⟩ := primitivePart_total q
        unfold searchStep at hsn
        simp only [r1, hq, hq'] at hsn
        simp at hsn
      · rw [h2] at h
        cases b with
        | false => simp at h
        | true =>
          simp only at h
          obtain ⟨t1, t2, t3⟩ := (hmem T).mp hT
          obtain ⟨c, c1, c2, c3, c4, c5, c6, c7⟩ :=
            searchStep_sound T { s with found := false } s1 hinv.st.pp h1
          simp only at c1 c4 c5 c6
          have hTb : ∀ i ∈ T, i < s.modular.length := fun i hi => (t3 i hi).2
          have hF := candidate_for s.input s.modular hinv.st T hTb t2 c c1
          have hperm := foldr_eraseIdx_perm s.modular T t2 hTb
          rw [← c5] at hperm
          have hlen := hperm.length_eq
          have hAlen : (T.map fun i => s.modular.getD i default).length = n := by
            rw [List.length_map, t1]
          generalize (T.map fun i => s.modular.getD i default) = A at hF hperm hlen hAlen
          rw [List.length_append] at hlen
          obtain ⟨st1, st2⟩ := hinv.st.sub s1.input.toPoly c.toPoly c4 c3 c2 A s1.modular hperm hF
          have hA : A ≠ [] := by rintro rfl; simp at hAlen; omega
          have hcirr : Irreducible c.toPoly := by
            refine c2.irreducible (st2.natDegree_ne hA) ?_
            intro g k hg hk hgk
            by_contra hc
            push Not at hc
            obtain ⟨A1, A2, a1, a2, a3⟩ := st2.split g k hgk
            have h4 := hinv.least g (k * s1.input.toPoly) hg (by rw [c4, hgk]; ring) hc.1 A1 (A2 ++ s1.modular)
              (by rw [← List.append_assoc]; exact hperm.trans (a1.append_right _)) a2
            have h5 := a3.ne_nil (lead_mul st2.lead hgk).2 hc.2 he
            have h6 := a1.length_eq
            have h7 := List.length_pos_of_ne_nil h5
            rw [List.length_append] at h6
            omega
          refine ih n s1 s' ?_ (fun _ => hn0) ?_ h
          · rw [if_pos c7]
            refine ⟨st1, ?_, ?_, ?_, ?_⟩
            · intro h0
              rw [h0, List.length_nil] at hlen
              omega
            · exact (Dvd.intro _ c4.symm).trans hinv.dvd
            · intro A' B' hAB
              refine hinv.mu A' (B' ++ A) ?_
              refine hperm.trans (List.perm_append_comm.trans ?_)
              rw [← List.append_assoc]
              exact hAB.append_right _
            · intro g k hg hgk hd A' B' hAB hF'
              refine hinv.least g (k * c.toPoly) hg (by rw [c4, hgk]; ring) hd A' (B' ++ A) ?_ hF'
              refine hperm.trans (List.perm_append_comm.trans ?_)
              rw [← List.append_assoc]
              exact hAB.append_right _
          · intro g hg
            rw [c6] at hg
            rcases List.mem_append.mp hg with hg | hg
            · exact hall g hg
            · rw [List.mem_singleton.mp hg]; exact hcirr

end

end Poly
end Algebraics
