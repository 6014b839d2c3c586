import Verif.Model.ModFactor
import Verif.Lemmas.ModPoly
import Verif.Lemmas.Factor

/-!
# The factoring code on stored modular integers: the stored trees and the trees over `ZMod n`
-/

namespace Algebraics

namespace ModPoly

set_option linter.unusedSectionVars false

variable {m : ℕ} [NeZero m] {ext : ℤ → ℤ → ModInt.ExtGcd}

theorem big_inst : big.Instantiated := trivial

theorem big_fits (v : ℤ) : big.fits v := trivial

theorem i32_inst : i32.Instantiated := Or.inr (Or.inr (Or.inl rfl))

theorem i32_fits {p : ℕ} (h : p < 2 ^ 31) : i32.fits p := by
  unfold i32 IntTy.fits
  norm_num
  omega

theorem encP_injective {p q : Poly (ZMod m)} : encP p = encP q ↔ p = q := by
  constructor
  · intro h
    have he : Function.Injective (enc (m := m)) := by
      intro a b hab
      have := congrArg (fun c : ModInt => ((c.value : ℤ) : ZMod m)) hab
      simpa only [enc_cast] using this
    have h1 : p.raw.elements = q.raw.elements := (List.map_injective_iff.mpr he) h
    apply Poly.toPoly_injective
    unfold Poly.toPoly
    rw [coeffs_eq, coeffs_eq, h1]
  · rintro rfl; rfl

theorem enc_value_eq_one (hm : 1 < m) (c : ZMod m) : (enc c).value = 1 ↔ c = 1 := by
  show ((c.val : ℕ) : ℤ) = 1 ↔ c = 1
  have : Fact (1 < m) := ⟨hm⟩
  constructor
  · intro h
    apply ZMod.val_injective m
    rw [ZMod.val_one]
    exact_mod_cast h
  · rintro rfl
    rw [ZMod.val_one]; rfl

theorem isOne_encP (hm : 1 < m) (p : Poly (ZMod m)) : isOne (encP p) = p.isOne := by
  unfold isOne Poly.isOne
  rw [coeffs_eq]
  unfold encP
  rcases p.raw.elements with _ | ⟨a, _ | ⟨b, l⟩⟩
  · rfl
  · by_cases h : a = 1
    · simp [enc_value_eq_one hm, h]
    · simp [enc_value_eq_one hm, h]
  · simp

theorem isSquareFree_encP {t : IntTy} (hext : ModInt.IsExtGcd ext) (ht : t.Instantiated) (hm : t.fits m)
    (p : Poly (ZMod m)) : isSquareFree t ext (encP p) = p.isSquareFree := by
  unfold isSquareFree Poly.isSquareFree
  rw [derivative_encP ht hm]
  simp only [bind, Option.bind]
  rw [gcd_encP hext ht hm]
  cases Poly.gcd p p.derivative with
  | none => rfl
  | some g =>
    simp only [Option.map_some, length_encP]
    show some (decide (g.len - 1 = 0)) = _
    congr 1
    unfold Poly.degree
    by_cases h : g.len = 0
    · rw [if_pos h]; simp [h]
    · rw [if_neg h]; simp

theorem ofBigint_enc {t : IntTy} (hm : t.fits m) (v : ℤ) : ModInt.ofBigint t v m = some (enc ((v : ZMod m))) := by
  have h0 : (m : ℤ) ≠ 0 := by exact_mod_cast NeZero.ne m
  have hn := new_enc (m := m) (t := .bigInt) trivial v
  unfold ModInt.new ModInt.modularReduce at hn
  rw [if_neg h0, if_neg (by rintro ⟨h, -⟩; omega)] at hn
  unfold ModInt.ofBigint ModInt.reduceFromBigint
  rw [if_neg h0]
  have hn : some (⟨v.fmod m, m⟩ : ModInt) = some (enc (v : ZMod m)) := by
    rw [← hn]
    show _ = Option.map (fun v => (⟨v, m⟩ : ModInt)) (if True then some (v.fmod m) else none)
    rw [if_pos trivial]; rfl
  rw [Option.some.injEq] at hn
  have hf : t.fits (v.fmod m) := by
    have h1 : v.fmod m = ((v : ZMod m).val : ℤ) := congrArg ModInt.value hn
    have := enc_valid (t := t) hm (v : ZMod m)
    rw [h1]
    have h2 : ((v : ZMod m).val : ℤ) < m := this.2.2.2
    have h3 : (0 : ℤ) ≤ ((v : ZMod m).val : ℤ) := this.2.2.1
    revert hm h2 h3
    generalize ((v : ZMod m).val : ℤ) = x
    intro hm h2 h3
    cases t with
    | signed n => exact ⟨by have := hm.1; have : (0 : ℤ) < 2 ^ (n - 1) := by positivity
                            omega, by have := hm.2; omega⟩
    | unsigned n => exact ⟨h3, by have := hm.2; omega⟩
    | bigInt => trivial
    | bigUint => exact h3
  simp only [IntTy.check, if_pos hf, Option.map_some, Option.some.injEq]
  exact hn

theorem encP_ofCoeffs (l : List (ZMod m)) : encP (Poly.ofCoeffs l) = normalize (encL l) := by
  rw [normalize_enc]; rfl

theorem mapM_map_some {α β : Type} {f : α → Option β} {g : α → β} (h : ∀ a, f a = some (g a)) (l : List α) :
    l.mapM f = some (l.map g) := by
  have : f = fun a => some (g a) := funext h
  rw [this, mapM_some]

theorem ofInts32_enc (hm : i32.fits m) (f : Poly ℤ) : ofInts32 f m = some (encP (Poly.modPoly m f)) := by
  unfold ofInts32 Poly.modPoly
  rw [mapM_map_some (fun v => ofBigint_enc hm v), encP_ofCoeffs]
  simp [encL, Function.comp_def]

theorem ofIntsBig_enc (f : Poly ℤ) : ofIntsBig f m = some (encP (Poly.modPoly m f)) := by
  unfold ofIntsBig Poly.modPoly
  rw [mapM_map_some (fun v => new_enc (big_fits _) v), encP_ofCoeffs]
  simp [encL, Function.comp_def]

theorem setModulus_enc {n : ℕ} [NeZero n] (p : Poly (ZMod n)) :
    setModulus (encP p) m = some (encP (Poly.setModulus m p)) := by
  unfold setModulus Poly.setModulus
  rw [mapM_map_some (fun c : ModInt => new_enc (big_fits _) c.value), encP_ofCoeffs, coeffs_eq]
  simp only [Option.map_some]
  congr 2
  unfold encP encL
  rw [List.map_map, List.map_map]
  apply List.map_congr_left
  intro c _
  show enc (((c.val : ℕ) : ℤ) : ZMod m) = enc ((c.val : ZMod m))
  rw [Int.cast_natCast]

theorem setModulus_self (p : Poly (ZMod m)) : Poly.setModulus m p = p := by
  apply Poly.toPoly_injective
  ext i
  rw [Poly.coeff_setModulus]
  simp

/-! ### the prime -/

theorem selectPrime_enc (hext : ModInt.IsExtGcd ext) (f : Poly ℤ) (k : ℕ) : ∀ v : ℤ, v < 2 ^ 31 →
    selectPrime ext f k v = (Poly.selectPrime f k v).bind fun p => (ofInts32 f p).map fun g => (g, (p : ℤ)) := by
  induction k with
  | zero => intro v _; rfl
  | succ k ih =>
    intro v hv
    unfold selectPrime Poly.selectPrime
    rcases C49_next_prime_i32 v hv with ⟨p, h1, h2, h3, h4, h5, h6⟩ | ⟨h1, h2⟩
    · rw [h1]
      simp only
      by_cases hd : f.highestPowerCoefficient % (p : ℤ) = 0
      · rw [if_pos hd, if_pos hd]; exact ih p h2
      · rw [if_neg hd, if_neg hd]
        have : Fact p.Prime := ⟨h3⟩
        have : NeZero p := ⟨h3.ne_zero⟩
        have hfit : i32.fits p := i32_fits (by exact_mod_cast h2)
        rw [ofInts32_enc hfit, Int.toNat_natCast]
        have hlen : (encP (Poly.modPoly p f)).length = f.len := by
          rw [length_encP]
          have hnd : ¬ (p : ℤ) ∣ f.toPoly.leadingCoeff := by
            rw [Poly.highest_eq] at hd
            exact fun h => hd (Int.emod_eq_zero_of_dvd h)
          have hu : IsUnit ((f.toPoly.leadingCoeff : ℤ) : ZMod p) := by
            rw [isUnit_iff_ne_zero, Ne, ZMod.intCast_zmod_eq_zero_iff_dvd]; exact hnd
          have hne := Poly.modPoly_ne_zero f p hnd
          have hf0 : f.toPoly ≠ 0 := by
            intro h
            apply hnd
            rw [h]; simp
          have e1 := Poly.degree_eq (Poly.modPoly p f)
          have e2 := Poly.degree_eq f
          rw [if_neg hne] at e1
          rw [if_neg hf0] at e2
          rw [(Poly.modPoly_lead h3.one_lt f hu).1] at e1
          unfold Poly.degree at e1 e2
          split_ifs at e1 e2
          simp only [Option.some.injEq] at e1 e2
          omega
        simp only [bind, Option.bind]
        rw [if_neg (not_not.mpr hlen), isSquareFree_encP hext i32_inst hfit]
        cases (Poly.modPoly p f).isSquareFree with
        | none => rfl
        | some b =>
          cases b with
          | true =>
            simp only [Option.map_some, ofInts32_enc hfit]
            rfl
          | false => exact ih p h2
    · rw [h1]; rfl

/-! ### the modular factorization -/

theorem flatFactors_enc (hext : ModInt.IsExtGcd ext) (hm : i32.fits m) (h1 : 1 < m) (rng : ℕ → ℕ) (fuel : ℕ)
    (l : List (Poly (ZMod m))) : ∀ i pos,
    flatFactors ext rng fuel i (l.map encP) pos = encR (Poly.flatFactors rng fuel i l pos) := by
  induction l with
  | nil => intro i pos; rfl
  | cons f fs ih =>
    intro i pos
    simp only [List.map_cons]
    unfold flatFactors Poly.flatFactors
    rw [isOne_encP h1]
    by_cases hf : f.isOne = true
    · rw [if_pos hf, if_pos hf]; exact ih _ _
    · rw [if_neg hf, if_neg hf]
      by_cases hi : i = 0
      · rw [if_pos hi, if_pos hi, ih]
        rcases Poly.flatFactors rng fuel (i + 1) fs pos with e | ⟨r, pos'⟩ <;> rfl
      · rw [if_neg hi, if_neg hi, sdf_encP hext i32_inst hm]
        rcases Poly.sdf rng fuel i pos f with e | ⟨l, pos1⟩
        · rfl
        · simp only [encR, Except.map]
          rw [ih]
          rcases Poly.flatFactors rng fuel (i + 1) fs pos1 with e | ⟨r, pos'⟩
          · rfl
          · simp [encR, Except.map]

theorem modularFactors_enc (hext : ModInt.IsExtGcd ext) (hm : i32.fits m) (h1 : 1 < m) (rng : ℕ → ℕ) (fuel pos : ℕ)
    (f : Poly (ZMod m)) :
    modularFactors ext rng fuel pos (encP f) = encR (Poly.modularFactors rng fuel pos f) := by
  unfold modularFactors Poly.modularFactors
  rw [ddf_encP hext i32_inst hm]
  cases f.ddf with
  | none => rfl
  | some l => exact flatFactors_enc hext hm h1 rng fuel l 0 pos

/-! ### trees -/

/-- the stored form of a factor tree -/
def encT : FTree m → Tree
  | .leaf f => .leaf (encP f)
  | .node l r d p lb rb => .node (encT l) (encT r) d (encP p) (encP lb) (encP rb)

/-- a tree that is a leaf has a polynomial that is not zero -/
def Solid : FTree m → Prop
  | .leaf f => f.len ≠ 0
  | .node _ _ _ _ _ _ => True

theorem product_encT (s : FTree m) : (encT s).product = encP s.product := by cases s <;> rfl

theorem leaves_encT (s : FTree m) : (encT s).leaves = s.leaves.map encP := by
  induction s with
  | leaf f => rfl
  | node l r d p lb rb ihl ihr => simp [encT, Tree.leaves, FTree.leaves, ihl, ihr]

theorem degree_encT {s : FTree m} (h : Solid s) : (encT s).degree = some s.degree := by
  cases s with
  | leaf f =>
    have h : f.len ≠ 0 := h
    show (if (encP f).isEmpty then none else some ((encP f).length - 1) : Option ℕ) = some (f.degree.getD 0)
    have := degree_encP f
    have he : (encP f).isEmpty = false := by
      rw [Bool.eq_false_iff]
      intro hh
      rw [List.isEmpty_iff] at hh
      have := congrArg List.length hh
      rw [length_encP] at this
      exact h this
    rw [he] at this
    simp only [Bool.false_eq_true, if_false] at this
    rw [he, this]
    rfl
  | node l r d p lb rb => rfl

theorem degreeD_encT (s : FTree m) : (encT s).degree.getD 0 = s.degree := by
  cases s with
  | leaf f =>
    show (if (encP f).isEmpty then none else some ((encP f).length - 1) : Option ℕ).getD 0 = f.degree.getD 0
    rw [degree_encP f]
  | node l r d p lb rb => rfl

theorem mkNode_enc (hext : ModInt.IsExtGcd ext) (hm : i32.fits m) (h1 : 1 < m) {l r : FTree m} (hl : Solid l)
    (hr : Solid r) : Tree.mkNode ext (encT l) (encT r) = (FTree.mkNode l r).map encT := by
  unfold Tree.mkNode FTree.mkNode
  rw [degree_encT hl, degree_encT hr, product_encT, product_encT, mul_encP i32_inst hm, extendedGcd_encP hext i32_inst hm]
  cases Poly.extendedGcd l.product r.product with
  | none => rfl
  | some e =>
    simp only [Option.map_some, bind, Option.bind, encS, isOne_encP h1, length_encP]
    split_ifs <;> rfl

theorem solid_mkNode {l r s : FTree m} (h : FTree.mkNode l r = some s) : Solid s := by
  unfold FTree.mkNode at h
  split at h
  · cases h
  · split_ifs at h
    cases h
    trivial

theorem pop_enc (choose : ℕ → List ℕ → ℕ) (k : ℕ) (heap : List (FTree m)) :
    Tree.pop choose k (heap.map encT) = (FTree.pop choose k heap).map fun x => (encT x.1, x.2.map encT) := by
  unfold Tree.pop FTree.pop
  have : (heap.map encT).map (fun t => t.degree.getD 0) = heap.map FTree.degree := by
    rw [List.map_map]
    apply List.map_congr_left
    intro s _
    exact degreeD_encT s
  rw [this]
  simp only [List.getElem?_map]
  cases heap[choose k (heap.map FTree.degree)]? with
  | none => rfl
  | some s => simp [List.eraseIdx_map]

theorem pop_mem {choose : ℕ → List ℕ → ℕ} {k : ℕ} {heap rest : List (FTree m)} {s : FTree m}
    (h : FTree.pop choose k heap = some (s, rest)) : s ∈ heap ∧ ∀ x ∈ rest, x ∈ heap := by
  unfold FTree.pop at h
  dsimp only at h
  split at h
  · cases h
  · rename_i t ht
    injection h with h
    injection h with e1 e2
    subst e1 e2
    exact ⟨List.mem_of_getElem? ht, fun x hx => List.mem_of_mem_eraseIdx hx⟩

theorem build_enc (hext : ModInt.IsExtGcd ext) (hm : i32.fits m) (h1 : 1 < m) (choose : ℕ → List ℕ → ℕ) (fuel : ℕ) :
    ∀ (k : ℕ) (heap : List (FTree m)), (∀ s ∈ heap, Solid s) →
      Tree.build ext choose fuel k (heap.map encT) = (FTree.build choose fuel k heap).map (·.map encT) := by
  induction fuel with
  | zero => intro k heap _; rfl
  | succ fuel ih =>
    intro k heap hs
    unfold Tree.build FTree.build
    rw [pop_enc]
    rcases hp : FTree.pop choose k heap with _ | ⟨a, heap1⟩
    · rfl
    · obtain ⟨m1, m2⟩ := pop_mem hp
      simp only [Option.map_some]
      rw [pop_enc]
      rcases hp2 : FTree.pop choose (k + 1) heap1 with _ | ⟨b, heap2⟩
      · rfl
      · obtain ⟨m3, m4⟩ := pop_mem hp2
        simp only [Option.map_some]
        rw [mkNode_enc hext hm h1 (hs a m1) (hs b (m2 b m3))]
        rcases hk : FTree.mkNode a b with _ | s
        · rfl
        · simp only [Option.map_some]
          rw [← List.map_cons]
          apply ih
          intro x hx
          rcases List.mem_cons.mp hx with rfl | hx
          · exact solid_mkNode hk
          · exact hs x (m2 x (m4 x hx))

theorem toBig_enc (s : FTree m) : (encT s).toBig m = some (encT s) := by
  induction s with
  | leaf f =>
    simp only [encT, Tree.toBig, setModulus_enc, setModulus_self, bind, Option.bind]
    rfl
  | node l r d p lb rb ihl ihr =>
    simp only [encT, Tree.toBig, setModulus_enc, setModulus_self, bind, Option.bind, ihl, ihr]
    rfl

/-! ### lifting -/

theorem liftFactors_enc (hext : ModInt.IsExtGcd ext) (l r lb rb np : Poly (ZMod m)) :
    Tree.liftFactors ext (encP l) (encP r) (encP lb) (encP rb) (encP np) =
      (FTree.liftFactors l r lb rb np).map fun x => (encP x.1, encP x.2) := by
  unfold Tree.liftFactors FTree.liftFactors
  simp only [mul_encP big_inst (big_fits _), sub_encP big_inst (big_fits _), divRem_encP hext big_inst (big_fits _), bind,
    Option.bind]
  rcases (lb * (np - l * r)).divRem r with _ | ⟨q, s⟩
  · rfl
  · simp only [Option.map_some, mul_encP big_inst (big_fits _), add_encP big_inst (big_fits _)]
    rfl

theorem liftBezout_enc (hext : ModInt.IsExtGcd ext) (l r lb rb : Poly (ZMod m)) :
    Tree.liftBezout ext (encP l) (encP r) (encP lb) (encP rb) m =
      (FTree.liftBezout l r lb rb).map fun x => (encP x.1, encP x.2) := by
  unfold Tree.liftBezout FTree.liftBezout
  have hone : ModInt.new big 1 m = some (enc (1 : ZMod m)) := by
    rw [new_enc (big_fits _)]; simp
  simp only [mul_encP big_inst (big_fits _), add_encP big_inst (big_fits _), hone, subCoeff_encP big_inst (big_fits _),
    divRem_encP hext big_inst (big_fits _), bind, Option.bind]
  rcases (lb * (lb * l + rb * r).subCoeff 1).divRem r with _ | ⟨q, s⟩
  · rfl
  · simp only [Option.map_some, mul_encP big_inst (big_fits _), sub_encP big_inst (big_fits _)]
    rfl

theorem liftChecks_enc {n : ℕ} [NeZero n] (h1 : 1 < m) (ol or : Poly (ZMod n)) (l r lb rb np : Poly (ZMod m)) :
    Tree.liftChecks n (encP ol) (encP or) (encP l) (encP r) (encP lb) (encP rb) (encP np) =
      some (FTree.liftChecks ol or l r lb rb np) := by
  unfold Tree.liftChecks FTree.liftChecks
  simp only [setModulus_enc, mul_encP big_inst (big_fits _), add_encP big_inst (big_fits _), bind, Option.bind,
    isOne_encP h1, encP_injective]
  rfl

theorem henselStep_enc {n : ℕ} [NeZero n] (hext : ModInt.IsExtGcd ext) (h1 : 1 < m) (s : FTree n) :
    ∀ (np : Poly (ZMod m)) (s' : FTree m), s.henselStep m np = some s' → (∀ g ∈ s'.leaves, g.len ≠ 0) →
      (encT s).henselStep ext n m (encP np) = some (encT s') := by
  induction s with
  | leaf f =>
    intro np s' h _
    injection h with h
    subst h
    rfl
  | node l r d p lb rb ihl ihr =>
    intro np s' h hs
    unfold FTree.henselStep at h
    unfold encT Tree.henselStep
    simp only [product_encT, setModulus_enc, bind, Option.bind, liftFactors_enc hext]
    split at h
    · cases h
    · rename_i l' r' hlr
      rw [hlr]
      simp only [Option.map_some, liftBezout_enc hext]
      split at h
      · cases h
      · rename_i lb' rb' hb
        rw [hb]
        simp only [Option.map_some, liftChecks_enc h1]
        split_ifs at h with hc
        rw [if_pos hc]
        split at h
        · rename_i tl tr htl htr
          injection h with h
          subst h
          have hsl : ∀ g ∈ tl.leaves, g.len ≠ 0 := fun g hg => hs g (List.mem_append_left _ hg)
          have hsr : ∀ g ∈ tr.leaves, g.len ≠ 0 := fun g hg => hs g (List.mem_append_right _ hg)
          have solid : ∀ x : FTree m, (∀ g ∈ x.leaves, g.len ≠ 0) → Solid x := by
            intro x hx
            cases x with
            | leaf f => exact hx f (by simp [FTree.leaves])
            | node _ _ _ _ _ _ => trivial
          rw [ihl l' tl htl hsl, ihr r' tr htr hsr]
          simp only [degree_encT (solid tl hsl), degree_encT (solid tr hsr)]
          rfl
        · cases h

theorem len_ne_zero {p : Poly (ZMod m)} (h : p.toPoly ≠ 0) : p.len ≠ 0 := by
  have e := Poly.degree_eq p
  rw [if_neg h] at e
  unfold Poly.degree at e
  split_ifs at e with h0
  exact h0

theorem ok_leaves (h1 : 1 < m) {s : FTree m} (h : s.Ok) : ∀ g ∈ s.leaves, g.len ≠ 0 := by
  have : Fact (1 < m) := ⟨h1⟩
  induction s with
  | leaf f =>
    intro g hg
    rw [FTree.leaves, List.mem_singleton] at hg
    subst hg
    have hu : IsUnit g.toPoly.leadingCoeff := h
    apply len_ne_zero
    intro h0
    rw [h0, Polynomial.leadingCoeff_zero] at hu
    exact not_isUnit_zero hu
  | node l r d p lb rb ihl ihr =>
    intro g hg
    rcases List.mem_append.mp hg with hg | hg
    · exact ihl h.1 g hg
    · exact ihr h.2.1 g hg

theorem liftLoop_enc (hext : ModInt.IsExtGcd ext) (f : Poly ℤ) (limit : ℕ) (fuel : ℕ) :
    ∀ (n : ℕ) (s : FTree n), 1 < n → s.Ok → s.product = Poly.modPoly n f →
      IsUnit ((f.toPoly.leadingCoeff : ℤ) : ZMod n) → ∀ (M : ℕ) (s' : FTree M),
      Poly.liftLoop f limit fuel n s = some ⟨M, s'⟩ →
        liftLoop ext f limit fuel n (encT s) = some ((M : ℤ), encT s') := by
  induction fuel with
  | zero => intro n s _ _ _ _ M s' h; cases h
  | succ fuel ih =>
    intro n s hn hok hp hu M s' h
    have i1 : NeZero n := ⟨by omega⟩
    unfold Poly.liftLoop at h
    unfold liftLoop
    rw [Int.toNat_natCast]
    by_cases hl : Poly.needsLift limit n = true
    · rw [if_pos hl] at h ⊢
      have hnn : 1 < n * n := by nlinarith
      have i2 : NeZero (n * n) := ⟨by omega⟩
      have hu2 : IsUnit ((f.toPoly.leadingCoeff : ℤ) : ZMod (n * n)) := by
        apply Poly.red_isUnit hn
        rw [map_intCast]; exact hu
      obtain ⟨t', h1, h2, h3, h4, h5⟩ := FTree.henselStep_spec hn s (Poly.modPoly (n * n) f) hok
        (by rw [hp]; exact Poly.modPoly_down _ f)
        (by rw [hp, (Poly.modPoly_lead hn f hu).1, (Poly.modPoly_lead hnn f hu2).1])
      rw [h1] at h
      simp only at h
      rw [← Nat.cast_mul, ofIntsBig_enc]
      simp only [bind, Option.bind]
      rw [henselStep_enc hext hnn s _ t' h1 (ok_leaves hnn h2)]
      exact ih (n * n) t' hnn h2 h3 hu2 M s' h
    · rw [if_neg hl] at h ⊢
      injection h with h
      cases h
      rfl

/-! ### the search -/

theorem symmetric_enc (c : ZMod m) : symmetric m (enc c) = some (Poly.symmetric c) := by
  unfold symmetric Poly.symmetric
  have hlt := ZMod.val_lt c
  show (if ((c.val : ℕ) : ℤ) < 0 then none else if ¬ ((c.val : ℕ) : ℤ) < m then none
    else if (m : ℤ).tdiv 2 < ((c.val : ℕ) : ℤ) then some (((c.val : ℕ) : ℤ) - m) else some ((c.val : ℕ) : ℤ)) = _
  rw [if_neg (by omega), if_neg (not_not.mpr (Int.ofNat_lt.mpr hlt))]
  have : ((m : ℤ).tdiv 2 < ((c.val : ℕ) : ℤ)) ↔ m / 2 < c.val := by
    rw [Int.tdiv_eq_ediv_of_nonneg (by omega)]
    omega
  by_cases h : m / 2 < c.val
  · rw [if_pos (this.mpr h), if_pos h]
  · rw [if_neg (mt this.mp h), if_neg h]

theorem subsetProduct_enc (factors : List (Poly (ZMod m))) (sub : List ℕ) : ∀ acc : Poly (ZMod m),
    subsetProduct (factors.map encP) sub (encP acc) = (Poly.subsetProduct factors sub acc).map encP := by
  induction sub with
  | nil => intro acc; rfl
  | cons i is ih =>
    intro acc
    unfold subsetProduct Poly.subsetProduct
    rw [List.getElem?_map]
    cases factors[i]? with
    | none => rfl
    | some g =>
      simp only [Option.map_some, bind, Option.bind, mul_encP big_inst (big_fits _)]
      exact ih _

theorem candidate_enc (input : Poly ℤ) (factors : List (Poly (ZMod m))) (sub : List ℕ) :
    candidate m input (factors.map encP) sub = Poly.candidate input factors sub := by
  unfold candidate Poly.candidate
  rw [new_enc (big_fits _)]
  have : normalize [enc ((input.highestPowerCoefficient : ℤ) : ZMod m)] =
      encP (Poly.ofCoeffs [((input.highestPowerCoefficient : ℤ) : ZMod m)]) := (encP_ofCoeffs [((input.highestPowerCoefficient : ℤ) : ZMod m)]).symm
  simp only [bind, Option.bind, this, subsetProduct_enc]
  cases Poly.subsetProduct factors sub (Poly.ofCoeffs [((input.highestPowerCoefficient : ℤ) : ZMod m)]) with
  | none => rfl
  | some p =>
    simp only [Option.map_some]
    have : (encP p).mapM (symmetric m) = some (p.coeffs.map Poly.symmetric) := by
      rw [coeffs_eq]
      unfold encP encL
      rw [List.mapM_map]
      exact mapM_map_some (fun c => symmetric_enc c) _
    rw [this]

/-- the stored form of the state of the search -/
def encSearch (s : Poly.Search m) : Search := ⟨s.input, s.modular.map encP, s.factors, s.found⟩

theorem eraseIdx_enc (l : List ℕ) : ∀ fs : List (Poly (ZMod m)),
    l.foldl (fun l i => l.eraseIdx i) (fs.map encP) = (l.foldl (fun l i => l.eraseIdx i) fs).map encP := by
  induction l with
  | nil => intro fs; rfl
  | cons i l ih =>
    intro fs
    simp only [List.foldl_cons, List.eraseIdx_map]
    exact ih _

theorem searchStep_enc (sub : List ℕ) (s : Poly.Search m) :
    searchStep m sub (encSearch s) = ((encSearch (Poly.searchStep sub s).1), (Poly.searchStep sub s).2) := by
  unfold searchStep Poly.searchStep
  have : candidate m (encSearch s).input (encSearch s).modular sub = Poly.candidate s.input s.modular sub :=
    candidate_enc _ _ _
  rw [this]
  cases Poly.candidate s.input s.modular sub with
  | none => rfl
  | some c =>
    simp only
    show (match s.input.exactPseudoDiv c with | none => _ | some (quotient, _) => _) = _
    rcases s.input.exactPseudoDiv c with _ | ⟨q, x⟩
    · rfl
    · simp only
      cases q.primitivePart Poly.intGcd with
      | none => rfl
      | some q =>
        simp only [encSearch, eraseIdx_enc]

theorem forUntilBreak_hom {σ σ' τ ι : Type*} (g : σ → σ') (body : ι → σ → σ × Option τ) (body' : ι → σ' → σ' × Option τ)
    (h : ∀ i s, body' i (g s) = (g (body i s).1, (body i s).2)) (l : List ι) : ∀ s,
    forUntilBreak body' l (g s) = (g (forUntilBreak body l s).1, (forUntilBreak body l s).2) := by
  induction l with
  | nil => intro s; rfl
  | cons i l ih =>
    intro s
    unfold forUntilBreak
    rw [h]
    rcases body i s with ⟨s1, _ | b⟩
    · exact ih s1
    · rfl

theorem subsetsHelper_hom {σ σ' τ : Type*} (g : σ → σ') (cb : List ℕ → σ → σ × Option τ)
    (cb' : List ℕ → σ' → σ' × Option τ) (h : ∀ i s, cb' i (g s) = (g (cb i s).1, (cb i s).2)) (left : ℕ) :
    ∀ pre start stop s, subsetsHelper cb' left pre start stop (g s) =
      (g (subsetsHelper cb left pre start stop s).1, (subsetsHelper cb left pre start stop s).2) := by
  induction left with
  | zero => intro pre start stop s; exact h pre s
  | succ left ih =>
    intro pre start stop s
    unfold subsetsHelper
    split_ifs
    · exact forUntilBreak_hom g _ _ (fun i s => ih _ _ _ s) _ s
    · rfl

theorem searchLoop_enc (fuel : ℕ) : ∀ (size : ℕ) (s : Poly.Search m),
    searchLoop m fuel size (encSearch s) = (Poly.searchLoop fuel size s).map encSearch := by
  induction fuel with
  | zero => intro size s; rfl
  | succ fuel ih =>
    intro size s
    unfold searchLoop Poly.searchLoop
    have hlen : (encSearch s).modular.length = s.modular.length := List.length_map _
    have hf : (encSearch s).found = s.found := rfl
    rw [hlen, hf]
    simp only
    generalize (if s.found = true then size else size + 1) = k
    by_cases hk : k * 2 > s.modular.length
    · rw [if_pos hk, if_pos hk]; rfl
    · rw [if_neg hk, if_neg hk]
      have hs : { encSearch s with found := false } = encSearch { s with found := false } := rfl
      rw [hs]
      have : forSubsetsOfSize (searchStep m) k 0 s.modular.length (encSearch { s with found := false }) =
          (encSearch (forSubsetsOfSize Poly.searchStep k 0 s.modular.length { s with found := false }).1,
            (forSubsetsOfSize Poly.searchStep k 0 s.modular.length { s with found := false }).2) := by
        unfold forSubsetsOfSize
        split_ifs
        · rfl
        · exact subsetsHelper_hom encSearch _ _ searchStep_enc k _ _ _ _
      rw [this]
      rcases forSubsetsOfSize Poly.searchStep k 0 s.modular.length { s with found := false } with ⟨s1, _ | _ | _⟩
      · exact ih k s1
      · rfl
      · exact ih k s1

theorem recombine_enc (h1 : 1 < m) (f : Poly ℤ) (s : FTree m) (hs : s.Ok) :
    recombine f m (encT s) = Poly.recombine f s := by
  unfold recombine Poly.recombine
  have hfil : (encT s).leaves.filter (fun g => !decide (g.length = 1)) =
      (s.leaves.filter fun g => !decide (g.degree = some 0)).map encP := by
    rw [leaves_encT, List.filter_map]
    congr 1
    apply List.filter_congr
    intro g hg
    have hg0 := ok_leaves h1 hs g hg
    simp only [Function.comp_apply, length_encP]
    congr 1
    unfold Poly.degree
    rw [if_neg hg0]
    simp only [Option.some.injEq]
    have : g.len = 1 ↔ g.len - 1 = 0 := by omega
    simp [this]
  simp only [hfil]
  rw [if_neg]
  · rw [List.length_map]
    have := searchLoop_enc (2 * (s.leaves.filter fun g => !decide (g.degree = some 0)).length + 2) 0
      (⟨f, s.leaves.filter fun g => !decide (g.degree = some 0),
        if f.content Poly.intGcd = 1 then [] else [Poly.ofCoeffs [f.content Poly.intGcd]], false⟩ : Poly.Search m)
    unfold encSearch at this
    simp only at this
    rw [this]
    cases Poly.searchLoop _ 0 _ <;> rfl
  · rw [Bool.not_eq_true, List.any_eq_false]
    intro x hx
    obtain ⟨g, hg, rfl⟩ := List.mem_map.mp hx
    rw [List.mem_filter] at hg
    have hg0 := ok_leaves h1 hs g hg.1
    have hd := hg.2
    unfold Poly.degree at hd
    rw [if_neg hg0] at hd
    simp only [length_encP, decide_eq_true_eq]
    simp at hd
    omega

/-! ### the whole -/

theorem liftAndRecombine_enc (hext : ModInt.IsExtGcd ext) (choose : ℕ → List ℕ → ℕ) (hc : Poly.HeapOrder choose)
    (f : Poly ℤ) (hd : 2 ≤ f.toPoly.natDegree) (p : ℕ) (hp : Poly.GoodPrime f p) (rng : ℕ → ℕ) (fuel pos : ℕ)
    (l : List (Poly (ZMod p))) (pos' : ℕ) (hl : Poly.modularFactors rng fuel pos (Poly.modPoly p f) = .ok (l, pos')) :
    liftAndRecombine ext choose f p (l.map encP) = Poly.liftAndRecombine choose f l := by
  obtain ⟨p1, p2, p3, p4, p5⟩ := hp
  have : Fact p.Prime := ⟨p1⟩
  have hp1 : 1 < p := p1.one_lt
  have : NeZero p := ⟨p1.ne_zero⟩
  rw [← Poly.toPoly_modPoly] at p5
  rcases Poly.modularFactors_spec p2 rng fuel pos (Poly.modPoly p f) p5 with h | ⟨r, pos'', h, hr, hprod⟩
  · rw [h] at hl; cases hl
  rw [h] at hl
  have hl1 := (Prod.mk.inj (Except.ok.inj hl)).1.symm
  have hu : IsUnit ((f.toPoly.leadingCoeff : ℤ) : ZMod p) := by
    rw [isUnit_iff_ne_zero, Ne, ZMod.intCast_zmod_eq_zero_iff_dvd]; exact p4
  obtain ⟨m1, m2⟩ := Poly.modPoly_lead hp1 f hu
  obtain ⟨a1, a2, a3, a4, a5⟩ := Poly.leaves_ok (Poly.modPoly p f).toPoly (Poly.modPoly_ne_zero f p p4)
    (by rw [m1]; omega) p5 r hr hprod l hl1
  obtain ⟨t, b1, b2, b3, b4, b5⟩ := FTree.build_spec choose hc.lt (l.length + 1) 0 (l.map FTree.leaf)
    (by simpa using a1) (by simp) a2 a3
  have htp : t.product = Poly.modPoly p f := Poly.toPoly_injective (by rw [b3, a4])
  obtain ⟨k, t', c1, c2, -⟩ := Poly.liftLoop_spec f f.factorLimit.toNat
    (f.factorLimit.toNat + 2) p t hp1 (by omega) (by omega) b2 htp hu
  have hM : 1 < p ^ 2 ^ k := Nat.one_lt_pow (by positivity) hp1
  have : NeZero (p ^ 2 ^ k) := ⟨by omega⟩
  unfold liftAndRecombine Poly.liftAndRecombine
  have hb : Tree.build ext choose ((l.map encP).length + 1) 0 ((l.map encP).map Tree.leaf) =
      some (some (encT t)) := by
    have e : (l.map encP).map Tree.leaf = (l.map FTree.leaf).map encT := by
      rw [List.map_map, List.map_map]; rfl
    rw [e, List.length_map, build_enc hext (i32_fits (by exact_mod_cast p3)) hp1, b1]
    · rfl
    · intro s hs
      obtain ⟨g, hg, rfl⟩ := List.mem_map.mp hs
      exact ok_leaves hp1 (a2 _ hs) g (by simp [FTree.leaves])
  rw [hb, b1]
  simp only [toBig_enc, bind, Option.bind]
  rw [liftLoop_enc hext f _ _ p t hp1 b2 htp hu _ _ c1, c1]
  exact recombine_enc hM f t' c2

theorem factorSquareFree_enc (hext : ModInt.IsExtGcd ext) (choose : ℕ → List ℕ → ℕ) (hc : Poly.HeapOrder choose)
    (rng : ℕ → ℕ) (fuel pos : ℕ) (f : Poly ℤ) :
    factorSquareFree ext choose rng fuel pos f = Poly.factorSquareFree choose rng fuel pos f := by
  unfold factorSquareFree Poly.factorSquareFree
  by_cases hd : f.degree.getD 0 ≤ 1
  · rw [if_pos hd, if_pos hd]
  · rw [if_neg hd, if_neg hd, selectPrime_enc hext f (2 ^ 31) 2 (by norm_num)]
    rcases hs : Poly.selectPrime f (2 ^ 31) 2 with _ | p
    · rfl
    · have hgood := (Poly.selectPrime_spec f (2 ^ 31) 2 (by norm_num)).1 p hs
      obtain ⟨p1, p2, p3, p4, p5⟩ := id hgood
      have : NeZero p := ⟨p1.ne_zero⟩
      have hfit := i32_fits (by exact_mod_cast p3)
      simp only [Option.bind, ofInts32_enc hfit, Option.map_some, modularFactors_enc hext hfit p1.one_lt]
      have hd2 : 2 ≤ f.toPoly.natDegree := by
        rw [Poly.degree_eq] at hd
        split_ifs at hd with h0
        · simp at hd
        · simp at hd; omega
      rcases hl : Poly.modularFactors rng fuel pos (Poly.modPoly p f) with e | ⟨l, pos'⟩
      · rfl
      · simp only [encR, Except.map]
        rw [liftAndRecombine_enc hext choose hc f hd2 p hgood rng fuel pos l pos' hl]
        cases Poly.liftAndRecombine choose f l <;> rfl

theorem factorLoop_enc (hext : ModInt.IsExtGcd ext) (choose : ℕ → List ℕ → ℕ) (hc : Poly.HeapOrder choose)
    (rng : ℕ → ℕ) (fuel : ℕ) (gs : List (Poly ℚ)) : ∀ index pos,
    factorLoop ext choose rng fuel index gs pos = Poly.factorLoop choose rng fuel index gs pos := by
  induction gs with
  | nil => intro index pos; rfl
  | cons g gs ih =>
    intro index pos
    unfold factorLoop Poly.factorLoop
    rw [factorSquareFree_enc hext choose hc]
    rcases Poly.factorSquareFree choose rng fuel pos (Poly.ofCoeffs (Poly.ratElements g)) with e | ⟨l, pos1⟩
    · rfl
    · simp only
      rw [ih]
      rcases Poly.factorLoop choose rng fuel (index + 1) gs pos1 with e | ⟨r, pos2⟩ <;> rfl

theorem factor_enc (hext : ModInt.IsExtGcd ext) (choose : ℕ → List ℕ → ℕ) (hc : Poly.HeapOrder choose)
    (rng : ℕ → ℕ) (fuel pos : ℕ) (f : Poly ℤ) :
    factor ext choose rng fuel pos f = Poly.factor choose rng fuel pos f := by
  unfold factor Poly.factor
  simp only
  cases f.coeffs.mapM (fun v => checkedExactDivInt v (f.content Poly.intGcd)) with
  | none => rfl
  | some l =>
    simp only
    cases (Poly.ofCoeffs (l.map fun v : ℤ => (v : ℚ))).yun Poly.ratGcd with
    | none => rfl
    | some r =>
      obtain ⟨c, gs⟩ := r
      simp only
      rw [factorLoop_enc hext choose hc]
      rcases Poly.factorLoop choose rng fuel 0 gs pos with e | ⟨r, pos2⟩ <;> rfl

end ModPoly

end Algebraics
