import Verif.Lemmas.FactorTop

/-!
# Lemmas about factoring integer polynomials: what holds for every leading coefficient
-/

set_option linter.unusedSectionVars false

namespace Algebraics
namespace Poly

open Polynomial

/-- an integer polynomial that is irreducible or a product of two irreducible ones, one of degree at least 2 -/
def AtMostTwo (f : ℤ[X]) : Prop :=
  Irreducible f ∨ ∃ g h, Irreducible g ∧ Irreducible h ∧ f = g * h ∧ 2 ≤ g.natDegree ∧ 1 ≤ h.natDegree

section

variable {p e : ℕ} [Fact p.Prime] {he : e ≠ 0}

local instance inhabitedModular2 : Inhabited (Poly (ZMod (p ^ e))) := ⟨0⟩

/-- the leading coefficient is one -/
def Ones (A : List (Poly (ZMod (p ^ e)))) : Prop := ∀ a ∈ A, a.toPoly.leadingCoeff = 1

/-- at most one of the modular factors has a leading coefficient other than one -/
def OneOdd (E : List (Poly (ZMod (p ^ e)))) : Prop :=
  E.Pairwise fun a b => a.toPoly.leadingCoeff = 1 ∨ b.toPoly.leadingCoeff = 1

theorem OneOdd.split {E A B : List (Poly (ZMod (p ^ e)))} (h : OneOdd E) (hE : E.Perm (A ++ B)) :
    OneOdd A ∧ OneOdd B ∧ (Ones A ∨ Ones B) := by
  have h1 : (A ++ B).Pairwise fun a b => a.toPoly.leadingCoeff = 1 ∨ b.toPoly.leadingCoeff = 1 :=
    (hE.pairwise_iff fun h => h.symm).mp h
  obtain ⟨h2, h3, h4⟩ := List.pairwise_append.mp h1
  refine ⟨h2, h3, ?_⟩
  by_cases hA : Ones A
  · exact Or.inl hA
  · right
    unfold Ones at hA
    push Not at hA
    obtain ⟨a, ha, ha1⟩ := hA
    intro b hb
    exact (h4 a ha b hb).resolve_left ha1

theorem Ones.lead {A : List (Poly (ZMod (p ^ e)))} (he : e ≠ 0) (h : Ones A) :
    (A.map toPoly).prod.leadingCoeff = ((1 : ℕ) : ZMod (p ^ e)) := by
  have hnt := nontriv (p := p) he
  rw [(prod_lead _ (by
    intro a ha
    obtain ⟨b, hb, rfl⟩ := List.mem_map.mp ha
    rw [h b hb]; exact isUnit_one)).1, List.map_map, Nat.cast_one]
  apply List.prod_eq_one
  intro x hx
  obtain ⟨b, hb, rfl⟩ := List.mem_map.mp hx
  exact h b hb

theorem Ones.left {A B C : List (Poly (ZMod (p ^ e)))} (h : Ones A) (hA : A.Perm (B ++ C)) : Ones B ∧ Ones C :=
  ⟨fun a ha => h a (hA.mem_iff.mpr (by simp [ha])), fun a ha => h a (hA.mem_iff.mpr (by simp [ha]))⟩

/-- each modular factor counts for the degree -/
theorem length_le_degree (he : e ≠ 0) (A : List (Poly (ZMod (p ^ e))))
    (h1 : ∀ a ∈ A, IsUnit a.toPoly.leadingCoeff) (h2 : ∀ a ∈ A, Irreducible (a.toPoly.map (redp he))) :
    A.length ≤ (A.map toPoly).prod.natDegree := by
  have hnt := nontriv (p := p) he
  induction A with
  | nil => simp
  | cons a A ih =>
    have h3 := ih (fun b hb => h1 b (by simp [hb])) (fun b hb => h2 b (by simp [hb]))
    have h4 : IsUnit (A.map toPoly).prod.leadingCoeff := by
      apply (prod_lead _ ?_).2
      intro b hb
      obtain ⟨b', hb', rfl⟩ := List.mem_map.mp hb
      exact h1 b' (by simp [hb'])
    have h5 := h1 a (by simp)
    have h6 := (h2 a (by simp)).natDegree_pos
    rw [(map_lead he a.toPoly h5).1] at h6
    rw [List.map_cons, List.prod_cons, natDegree_mul' (h5.mul h4).ne_zero, List.length_cons]
    omega

theorem St.length_le {I : ℤ[X]} {E : List (Poly (ZMod (p ^ e)))} (h : St he I E) : E.length ≤ I.natDegree := by
  obtain ⟨c, hc, hp⟩ := h.assoc
  have h1 := length_le_degree he E h.unit h.irr
  rw [← (cast_lead he I h.lead).1, hp, natDegree_C_mul_of_isUnit hc]
  exact h1

/-- what the search keeps, whatever the leading coefficient -/
structure Inv2 (he : e ≠ 0) (f : Poly ℤ) (s : Search (p ^ e)) (n : ℕ) : Prop where
  st : St he s.input.toPoly s.modular
  ne : s.modular ≠ []
  dvd : s.input.toPoly ∣ f.toPoly
  odd : OneOdd s.modular
  least : ∀ g k, PP g → s.input.toPoly = g * k → g.natDegree ≠ 0 →
    ∀ A B, s.modular.Perm (A ++ B) → For A g → Ones A → n ≤ A.length

theorem Inv2.two {f : Poly ℤ} {s : Search (p ^ e)} {n : ℕ} (h : Inv2 he f s n) (hn : s.modular.length < n * 2)
    (g k : ℤ[X]) (hg : PP g) (hk : PP k) (hgk : s.input.toPoly = g * k) (hgd : g.natDegree ≠ 0)
    (hkd : k.natDegree ≠ 0) (A B : List (Poly (ZMod (p ^ e)))) (h1 : s.modular.Perm (A ++ B))
    (h2 : For A g) (h3 : For B k) (hA : Ones A) :
    (Irreducible g ∧ Irreducible k) ∧ 2 ≤ g.natDegree := by
  have hlen := h1.length_eq
  rw [List.length_append] at hlen
  have hA1 := h.least g k hg hgk hgd A B h1 h2 hA
  obtain ⟨stk, stg⟩ := h.st.sub k g (by rw [hgk, mul_comm]) hk hg A B h1 h2
  obtain ⟨-, oB, -⟩ := h.odd.split h1
  have hBl := List.length_pos_of_ne_nil (h3.ne_nil (lead_mul h.st.lead hgk).2 hkd he)
  have hgl := stg.length_le
  refine ⟨?_, by omega⟩
  constructor
  · refine hg.irreducible hgd ?_
    intro a b ha hb hab
    by_contra hc
    push Not at hc
    obtain ⟨A1, A2, a1, a2, a3⟩ := stg.split a b hab
    obtain ⟨o1, o2⟩ := hA.left a1
    have q1 := h.least a (b * k) ha (by rw [hgk, hab]; ring) hc.1 A1 (A2 ++ B)
      (by rw [← List.append_assoc]; exact h1.trans (a1.append_right _)) a2 o1
    have q2 := h.least b (a * k) hb (by rw [hgk, hab]; ring) hc.2 A2 (A1 ++ B)
      (by rw [← List.append_assoc]
          exact h1.trans ((a1.trans List.perm_append_comm).append_right _)) a3 o2
    have := a1.length_eq
    rw [List.length_append] at this
    omega
  · refine hk.irreducible hkd ?_
    intro a b ha hb hab
    by_contra hc
    push Not at hc
    obtain ⟨B1, B2, b1, b2, b3⟩ := stk.split a b hab
    have hlB := b1.length_eq
    rw [List.length_append] at hlB
    have hp : s.modular.Perm (B ++ A) := h1.trans List.perm_append_comm
    rcases (oB.split b1).2.2 with o | o
    · have q1 := h.least a (b * g) ha (by rw [hgk, hab]; ring) hc.1 B1 (B2 ++ A)
        (by rw [← List.append_assoc]; exact hp.trans (b1.append_right _)) b2 o
      omega
    · have q1 := h.least b (a * g) hb (by rw [hgk, hab]; ring) hc.2 B2 (B1 ++ A)
        (by rw [← List.append_assoc]
            exact hp.trans ((b1.trans List.perm_append_comm).append_right _)) b3 o
      omega

theorem Inv2.stop {f : Poly ℤ} {s : Search (p ^ e)} {n : ℕ} (h : Inv2 he f s n)
    (hn : s.modular.length < n * 2) : AtMostTwo s.input.toPoly := by
  by_cases hirr : Irreducible s.input.toPoly
  · exact Or.inl hirr
  right
  have hex : ∃ g k, PP g ∧ PP k ∧ s.input.toPoly = g * k ∧ g.natDegree ≠ 0 ∧ k.natDegree ≠ 0 := by
    by_contra hc
    apply hirr
    refine h.st.pp.irreducible (h.st.natDegree_ne h.ne) ?_
    intro g k hg hk hgk
    by_contra hd
    push Not at hd
    exact hc ⟨g, k, hg, hk, hgk, hd.1, hd.2⟩
  obtain ⟨g, k, hg, hk, hgk, hgd, hkd⟩ := hex
  obtain ⟨A, B, h1, h2, h3⟩ := h.st.split g k hgk
  rcases (h.odd.split h1).2.2 with o | o
  · obtain ⟨⟨i1, i2⟩, i3⟩ := h.two hn g k hg hk hgk hgd hkd A B h1 h2 h3 o
    exact ⟨g, k, i1, i2, hgk, i3, by omega⟩
  · obtain ⟨⟨i1, i2⟩, i3⟩ := h.two hn k g hk hg (by rw [hgk, mul_comm]) hkd hgd B A
      (h1.trans List.perm_append_comm) h3 h2 o
    exact ⟨k, g, i1, i2, by rw [hgk, mul_comm], i3, by omega⟩

theorem searchLoop_two (f : Poly ℤ) (hM : f.factorLimit.toNat < p ^ e * p ^ e) (hf : f.toPoly ≠ 0)
    (hpos : 0 < f.toPoly.leadingCoeff) (fuel : ℕ) : ∀ (size : ℕ) (s s' : Search (p ^ e)),
    Inv2 he f s (if s.found = true then size else size + 1) → (s.found = true → 0 < size) →
    (∀ g ∈ s.factors, Irreducible g.toPoly) → searchLoop fuel size s = some s' →
    (∀ g ∈ s'.factors, Irreducible g.toPoly) ∧ AtMostTwo s'.input.toPoly := by
  induction fuel with
  | zero => intro size s s' _ _ _ h; cases h
  | succ fuel ih =>
    intro size s s' hinv hfd hall h
    unfold searchLoop at h
    simp only at h
    have hn0 : 0 < (if s.found = true then size else size + 1) := by
      by_cases hfo : s.found = true
      · rw [if_pos hfo]; exact hfd hfo
      · rw [if_neg hfo]; omega
    generalize hsz : (if s.found = true then size else size + 1) = n at h hinv hn0
    by_cases hstop : n * 2 > s.modular.length
    · rw [if_pos hstop] at h
      cases h
      exact ⟨hall, hinv.stop hstop⟩
    · rw [if_neg hstop] at h
      obtain ⟨L, hmem, -, hL⟩ := C50_subsets n 0 s.modular.length (by omega)
      rw [hL] at h
      rcases forSearch L { s with found := false } with ⟨h1, hnone⟩ | ⟨T, hT, s1, b, h1, h2⟩
      · rw [h1] at h
        refine ih n { s with found := false } s' ?_ (by simp) hall h
        refine ⟨hinv.st, hinv.ne, hinv.dvd, hinv.odd, ?_⟩
        intro g k hg hgk hd A B hAB hF hO
        have h3 := hinv.least g k hg hgk hd A B hAB hF hO
        show n + 1 ≤ A.length
        by_contra hlt
        obtain ⟨T, t1, t2, t3, t4⟩ := indices_of_perm s.modular A B hAB
        have hTL : T ∈ L := (hmem T).mpr ⟨by omega, t1, fun i hi => ⟨Nat.zero_le _, t2 i hi⟩⟩
        have hsn := hnone T hTL
        obtain ⟨r, r1, r2⟩ := candidate_exact f hM hf s.input s.modular hinv.st hinv.dvd g k hg hgk T t2
          (hF.perm t4.symm) 1 (by omega) (by push_cast; omega)
          (by rw [(t4.map toPoly).prod_eq]; exact hO.lead he)
        obtain ⟨q, c, hq⟩ := exactPseudoDiv_dvd s.input r (by rw [r2]; exact hg.ne_zero)
          (by rw [r2, hgk]; exact Dvd.intro _ rfl)
        obtain ⟨q', hq'⟩ := primitivePart_total q
        unfold searchStep at hsn
        simp only [r1, hq, hq'] at hsn
        simp at hsn
      · rw [h2] at h
        cases b with
        | false => simp at h
        | true =>
          simp only at h
          obtain ⟨t1, t2, t3⟩ := (hmem T).mp hT
          obtain ⟨c, c1, c2, c3, c4, c5, c6, c7⟩ :=
            searchStep_sound T { s with found := false } s1 hinv.st.pp h1
          simp only at c1 c4 c5 c6
          have hTb : ∀ i ∈ T, i < s.modular.length := fun i hi => (t3 i hi).2
          have hF := candidate_for s.input s.modular hinv.st T hTb t2 c c1
          have hperm := foldr_eraseIdx_perm s.modular T t2 hTb
          rw [← c5] at hperm
          have hlen := hperm.length_eq
          have hAlen : (T.map fun i => s.modular.getD i default).length = n := by
            rw [List.length_map, t1]
          generalize (T.map fun i => s.modular.getD i default) = A at hF hperm hlen hAlen
          rw [List.length_append] at hlen
          obtain ⟨st1, st2⟩ := hinv.st.sub s1.input.toPoly c.toPoly c4 c3 c2 A s1.modular hperm hF
          have hA : A ≠ [] := by rintro rfl; simp at hAlen; omega
          obtain ⟨oA, oM, -⟩ := hinv.odd.split hperm
          have hcirr : Irreducible c.toPoly := by
            refine c2.irreducible (st2.natDegree_ne hA) ?_
            intro g k hg hk hgk
            by_contra hc
            push Not at hc
            obtain ⟨A1, A2, a1, a2, a3⟩ := st2.split g k hgk
            have h5 := List.length_pos_of_ne_nil (a3.ne_nil (lead_mul st2.lead hgk).2 hc.2 he)
            have h6 := List.length_pos_of_ne_nil (a2.ne_nil (lead_mul st2.lead hgk).1 hc.1 he)
            have h7 := a1.length_eq
            rw [List.length_append] at h7
            rcases (oA.split a1).2.2 with o | o
            · have h4 := hinv.least g (k * s1.input.toPoly) hg (by rw [c4, hgk]; ring) hc.1 A1 (A2 ++ s1.modular)
                (by rw [← List.append_assoc]; exact hperm.trans (a1.append_right _)) a2 o
              omega
            · have h4 := hinv.least k (g * s1.input.toPoly) hk (by rw [c4, hgk]; ring) hc.2 A2 (A1 ++ s1.modular)
                (by rw [← List.append_assoc]
                    exact hperm.trans ((a1.trans List.perm_append_comm).append_right _)) a3 o
              omega
          refine ih n s1 s' ?_ (fun _ => hn0) ?_ h
          · rw [if_pos c7]
            refine ⟨st1, ?_, ?_, oM, ?_⟩
            · intro h0
              rw [h0, List.length_nil] at hlen
              omega
            · exact (Dvd.intro _ c4.symm).trans hinv.dvd
            · intro g k hg hgk hd A' B' hAB hF' hO
              refine hinv.least g (k * c.toPoly) hg (by rw [c4, hgk]; ring) hd A' (B' ++ A) ?_ hF' hO
              refine hperm.trans (List.perm_append_comm.trans ?_)
              rw [← List.append_assoc]
              exact hAB.append_right _
          · intro g hg
            rw [c6] at hg
            rcases List.mem_append.mp hg with hg | hg
            · exact hall g hg
            · rw [List.mem_singleton.mp hg]; exact hcirr

/-- at most one nonconstant leaf has a leading coefficient other than one -/
theorem leaves_odd (he : e ≠ 0) (t : FTree (p ^ e)) (v w : ℕ) (hv : v < p) (hL : t.Lcs v w)
    (E : List (Poly (ZMod (p ^ e)))) (hE : E.Sublist t.leaves)
    (h1 : ∀ a ∈ E, redp he a.toPoly.leadingCoeff = 1) : OneOdd E := by
  have hp : p.Prime := Fact.out
  obtain ⟨rest, r1, r2⟩ := FTree.Lcs.leaf_list v w hL
  have key : (t.leaves.map fun g => g.toPoly.leadingCoeff).Pairwise fun x y =>
      x = 1 ∨ y = 1 ∨ redp he x ≠ 1 ∨ redp he y ≠ 1 := by
    have hsym : ∀ {x y : ZMod (p ^ e)}, (x = 1 ∨ y = 1 ∨ redp he x ≠ 1 ∨ redp he y ≠ 1) →
        (y = 1 ∨ x = 1 ∨ redp he y ≠ 1 ∨ redp he x ≠ 1) := by
      intro x y h; tauto
    have hrest : rest.Pairwise fun x y : ZMod (p ^ e) => x = 1 ∨ y = 1 ∨ redp he x ≠ 1 ∨ redp he y ≠ 1 :=
      List.pairwise_of_forall_mem_list (fun x hx y _ => Or.inl (r1 x hx))
    rcases r2 with r2 | r2
    · refine (r2.pairwise_iff hsym).mpr (List.pairwise_cons.mpr ⟨fun y hy => Or.inr (Or.inl (r1 y hy)), hrest⟩)
    · refine (r2.pairwise_iff hsym).mpr (List.pairwise_cons.mpr ⟨?_, List.pairwise_cons.mpr
        ⟨fun y hy => Or.inr (Or.inl (r1 y hy)), hrest⟩⟩)
      intro y hy
      rcases List.mem_cons.mp hy with rfl | hy
      · by_cases hv1 : redp he (v : ZMod (p ^ e)) = 1
        · left
          rw [map_natCast, ← Nat.cast_one, ZMod.natCast_eq_natCast_iff', Nat.mod_eq_of_lt hv,
            Nat.mod_eq_of_lt hp.one_lt] at hv1
          rw [hv1, Nat.cast_one]
        · exact Or.inr (Or.inr (Or.inl hv1))
      · exact Or.inr (Or.inl (r1 y hy))
  have key2 := (List.pairwise_map.mp key).sublist hE
  refine key2.imp_of_mem ?_
  intro a b ha hb h
  have := h1 a ha
  have := h1 b hb
  tauto

end

/-- the factors of a square-free polynomial: all but the last are irreducible, and the last one is
irreducible or a product of two irreducible ones -/
theorem factorSquareFree_two (choose : ℕ → List ℕ → ℕ) (hc : HeapOrder choose) (rng : ℕ → ℕ)
    (fuel pos : ℕ) (f : Poly ℤ) (hpp : PP f.toPoly)
    (r : List (Poly ℤ)) (pos' : ℕ) (h : factorSquareFree choose rng fuel pos f = .ok (r, pos')) :
    (∀ g ∈ r, g.toPoly ≠ 1 → AtMostTwo g.toPoly) ∧
      r.Pairwise fun a b => Irreducible a.toPoly ∨ Irreducible b.toPoly := by
  unfold factorSquareFree at h
  rw [degree_eq, if_neg hpp.ne_zero, Option.getD_some] at h
  by_cases hd : f.toPoly.natDegree ≤ 1
  · rw [if_pos hd] at h
    cases h
    refine ⟨?_, List.pairwise_singleton _ _⟩
    intro g hg hg1
    rw [List.mem_singleton.mp hg] at hg1 ⊢
    left
    refine hpp.irreducible (fun h0 => hg1 (hpp.const h0)) ?_
    intro a b ha hb hab
    rw [hab, natDegree_mul ha.ne_zero hb.ne_zero] at hd
    omega
  · rw [if_neg hd] at h
    obtain ⟨s1, -⟩ := selectPrime_spec f (2 ^ 31) 2 (by norm_num)
    cases hsel : selectPrime f (2 ^ 31) 2 with
    | none => rw [hsel] at h; cases h
    | some p =>
      have hp := s1 p hsel
      rw [hsel] at h
      simp only at h
      cases hm : modularFactors rng fuel pos (modPoly p f) with
      | error e => rw [hm] at h; cases h
      | ok lp =>
        obtain ⟨l, pos1⟩ := lp
        rw [hm] at h
        simp only at h
        obtain ⟨k, t, h1, h2, h3, h4, h5, ⟨r', h6, h7, -⟩, h8⟩ :=
          lifted_spec choose hc f (by omega) p hp rng fuel pos l pos1 hm
        have : Fact p.Prime := ⟨hp.1⟩
        rw [h4] at h
        have hv0 : 0 ≤ f.toPoly.leadingCoeff % p := Int.emod_nonneg _ (by exact_mod_cast hp.1.ne_zero)
        obtain ⟨v, hv⟩ := Int.eq_ofNat_of_zero_le hv0
        have hvp : v < p := by
          have := Int.emod_lt_of_pos f.toPoly.leadingCoeff (by exact_mod_cast hp.1.pos : (0 : ℤ) < p)
          rw [hv] at this
          exact_mod_cast this
        have he : 2 ^ k ≠ 0 := by positivity
        obtain ⟨hst, hne, -, hlead, hred⟩ :=
          initial_st f hpp (by omega) p hp (2 ^ k) he t h1 h2 l h5 r' h6 h7
        have i1 : NeZero (p ^ 2 ^ k) := ⟨pow_ne_zero _ hp.1.ne_zero⟩
        have hvu : IsUnit ((v : ℕ) : ZMod (p ^ 2 ^ k)) := by
          apply redp_unit he
          rw [map_natCast, isUnit_iff_ne_zero, Ne, ZMod.natCast_eq_zero_iff]
          intro hdv
          apply hp.2.2.2.1
          have : ((p : ℕ) : ℤ) ∣ f.toPoly.leadingCoeff % p := by rw [hv]; exact_mod_cast hdv
          exact (Int.dvd_iff_emod_eq_zero).mpr (by
            rw [← Int.emod_emod]; exact Int.emod_eq_zero_of_dvd this)
        obtain ⟨u, hu⟩ := hvu
        have hLcs := h8 v ((↑u⁻¹ * ((f.toPoly.leadingCoeff : ℤ) : ZMod (p ^ 2 ^ k)) : ZMod (p ^ 2 ^ k)).val)
          (by rw [ZMod.natCast_zmod_val, ← mul_assoc, ← hu, Units.mul_inv, one_mul]) hv
        have hodd := leaves_odd he t v _ hvp hLcs _ List.filter_sublist hred
        have hinv : Inv2 he f (⟨f, t.leaves.filter fun g => !decide (g.degree = some 0), [], false⟩ :
            Search (p ^ 2 ^ k)) 1 := by
          refine ⟨hst, hne, dvd_rfl, hodd, ?_⟩
          intro g k hg hgk hgd A B hAB hF _
          exact List.length_pos_of_ne_nil (hF.ne_nil (lead_mul hlead hgk).1 hgd he)
        have hcont : f.content intGcd = 1 := by
          obtain ⟨c1, c2, -⟩ := content_spec f
          obtain ⟨-, -, c4⟩ := c2 hpp.ne_zero
          have hu : IsUnit (f.content intGcd) := by
            apply hpp.1
            rw [C_dvd_iff_dvd_coeff]
            exact (c1 _).mp dvd_rfl
          have := c4.mpr hpp.2
          rcases Int.isUnit_iff.mp hu with h | h
          · exact h
          · omega
        unfold recombine at h
        simp only at h
        rw [hcont, if_pos rfl] at h
        generalize hsl : searchLoop _ 0 _ = o at h
        cases o with
        | none => cases h
        | some s =>
          simp only at h
          cases h
          obtain ⟨q1, q2⟩ := searchLoop_two f h3 hpp.ne_zero hpp.2 _ 0 _ s (by simpa using hinv) (by simp)
            (by simp) hsl
          constructor
          · intro g hg _
            rcases List.mem_append.mp hg with hg | hg
            · exact Or.inl (q1 g hg)
            · rw [List.mem_singleton.mp hg]; exact q2
          · rw [List.pairwise_append]
            refine ⟨List.pairwise_of_forall_mem_list (fun x hx y _ => Or.inl (q1 x hx)),
              List.pairwise_singleton _ _, fun a ha b _ => Or.inl (q1 a ha)⟩

theorem factorLoop_two (choose : ℕ → List ℕ → ℕ) (hc : HeapOrder choose) (rng : ℕ → ℕ) (fuel : ℕ)
    (gs : List (Poly ℚ)) : ∀ (index pos : ℕ),
    (∀ g ∈ gs, ∃ z : Poly ℤ, g.toPoly = z.toPoly.map (Int.castRingHom ℚ) ∧ PP z.toPoly) →
    ∀ r pos', factorLoop choose rng fuel index gs pos = .ok (r, pos') →
      (∀ e ∈ r, AtMostTwo e.1.toPoly ∧ index < e.2) ∧
      r.Pairwise fun a b => a.2 = b.2 → Irreducible a.1.toPoly ∨ Irreducible b.1.toPoly := by
  induction gs with
  | nil =>
    intro index pos _ r pos' h
    cases h
    simp
  | cons g gs ih =>
    intro index pos hz r pos' h
    obtain ⟨z, z1, z2⟩ := hz g (by simp)
    have hel : ofCoeffs (ratElements g) = z := toPoly_injective (ratElements_spec g z.toPoly z1)
    unfold factorLoop at h
    rw [hel] at h
    cases h1 : factorSquareFree choose rng fuel pos z with
    | error e => rw [h1] at h; cases h
    | ok lp =>
      obtain ⟨l, pos1⟩ := lp
      rw [h1] at h
      simp only at h
      obtain ⟨hi, hj⟩ := factorSquareFree_two choose hc rng fuel pos z z2 l pos1 h1
      cases h2 : factorLoop choose rng fuel (index + 1) gs pos1 with
      | error e => rw [h2] at h; cases h
      | ok rp =>
        obtain ⟨r2, pos2⟩ := rp
        rw [h2] at h
        simp only at h
        cases h
        obtain ⟨k1, k2⟩ := ih (index + 1) pos1 (fun g hg => hz g (by simp [hg])) r2 _ h2
        constructor
        · intro e he
          rcases List.mem_append.mp he with he | he
          · obtain ⟨q, hq, rfl⟩ := List.mem_map.mp he
            obtain ⟨hq1, hq2⟩ := List.mem_filter.mp hq
            refine ⟨hi q hq1 fun h0 => ?_, by simp⟩
            rw [Bool.not_eq_true'] at hq2
            rw [(isOne_iff q).mpr h0] at hq2
            cases hq2
          · have := k1 e he
            exact ⟨this.1, by omega⟩
        · rw [List.pairwise_append]
          refine ⟨?_, k2, ?_⟩
          · rw [List.pairwise_map]
            refine (hj.sublist List.filter_sublist).imp ?_
            intro a b h _
            exact h
          · intro a ha b hb hab
            obtain ⟨q, hq, rfl⟩ := List.mem_map.mp ha
            have := (k1 b hb).2
            simp only at hab
            omega

theorem factor_two (choose : ℕ → List ℕ → ℕ) (hc : HeapOrder choose) (rng : ℕ → ℕ)
    (fuel pos : ℕ) (f : Poly ℤ) (r : Factors) (pos' : ℕ) (h : factor choose rng fuel pos f = .ok (r, pos')) :
    (∀ e ∈ r.factors, AtMostTwo e.1.toPoly) ∧
      r.factors.Pairwise fun a b => a.2 = b.2 → Irreducible a.1.toPoly ∨ Irreducible b.1.toPoly := by
  rcases factor_pieces choose rng fuel pos f r pos' h with h1 | ⟨gs, h1, h2⟩
  · rw [h1]; simp
  · obtain ⟨q1, q2⟩ := factorLoop_two choose hc rng fuel gs 0 pos (fun g hg => by
      obtain ⟨z, z1, z2, z3, -⟩ := h2 g hg
      exact ⟨z, z1, z2⟩) _ _ h1
    exact ⟨fun e he => (q1 e he).1, q2⟩

end Poly
end Algebraics
