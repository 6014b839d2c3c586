import Verif.Model.IntervalFn
import Verif.Spec.IntervalFn
import Verif.Lemmas.Interval
import Mathlib.Topology.Order.MonotoneConvergence
import Mathlib.Analysis.SpecificLimits.Basic

namespace Algebraics
open Filter Topology

theorem agmSeq_add (x y : ℝ) (n : ℕ) :
    agmSeq x y (n + 1) = agmSeq ((x + y) / 2) (Real.sqrt (x * y)) n := by
  induction n with
  | zero => rfl
  | succ n ih => conv_lhs => rw [agmSeq]
                 rw [ih]; rfl

theorem IsAGM.step {x y m : ℝ} (h : IsAGM x y m) : IsAGM ((x + y) / 2) (Real.sqrt (x * y)) m := by
  unfold IsAGM at *
  simp only [← agmSeq_add]
  exact ⟨(tendsto_add_atTop_iff_nat (f := fun n => (agmSeq x y n).1) 1).mpr h.1,
    (tendsto_add_atTop_iff_nat (f := fun n => (agmSeq x y n).2) 1).mpr h.2⟩

theorem agmSeq_mem {x y : ℝ} (hx : 0 ≤ x) (hy : 0 ≤ y) (n : ℕ) :
    (min x y ≤ (agmSeq x y n).1 ∧ (agmSeq x y n).1 ≤ max x y) ∧
    (min x y ≤ (agmSeq x y n).2 ∧ (agmSeq x y n).2 ≤ max x y) := by
  induction n with
  | zero => exact ⟨⟨min_le_left _ _, le_max_left _ _⟩, ⟨min_le_right _ _, le_max_right _ _⟩⟩
  | succ n ih =>
    obtain ⟨⟨h1, h2⟩, ⟨h3, h4⟩⟩ := ih
    have hm : 0 ≤ min x y := le_min hx hy
    rw [agmSeq]
    refine ⟨⟨by simp only; linarith, by simp only; linarith⟩, ?_, ?_⟩
    · apply Real.le_sqrt_of_sq_le; nlinarith
    · rw [Real.sqrt_le_left (hm.trans (h1.trans h2))]; nlinarith

theorem IsAGM.mem {x y m : ℝ} (h : IsAGM x y m) (hx : 0 ≤ x) (hy : 0 ≤ y) :
    min x y ≤ m ∧ m ≤ max x y :=
  ⟨ge_of_tendsto' h.1 fun n => (agmSeq_mem hx hy n).1.1,
    le_of_tendsto' h.1 fun n => (agmSeq_mem hx hy n).1.2⟩

theorem exists_isAGM {x y : ℝ} (hx : 0 ≤ x) (hy : 0 ≤ y) : ∃ m, IsAGM x y m := by
  have nn : ∀ n, 0 ≤ (agmSeq x y n).1 ∧ 0 ≤ (agmSeq x y n).2 := fun n =>
    ⟨(le_min hx hy).trans (agmSeq_mem hx hy n).1.1, (le_min hx hy).trans (agmSeq_mem hx hy n).2.1⟩
  -- after one step the geometric mean is below the arithmetic mean
  have ord : ∀ n, (agmSeq x y (n + 1)).2 ≤ (agmSeq x y (n + 1)).1 := by
    intro n
    obtain ⟨ha, hg⟩ := nn n
    rw [agmSeq]
    simp only
    rw [Real.sqrt_le_left (by linarith)]
    nlinarith [sq_nonneg ((agmSeq x y n).1 - (agmSeq x y n).2)]
  have anti : Antitone fun n => (agmSeq x y (n + 1)).1 := by
    apply antitone_nat_of_succ_le
    intro n
    have := ord n
    conv_lhs => rw [agmSeq]
    simp only; linarith
  have mono : ∀ n, (agmSeq x y (n + 1)).2 ≤ (agmSeq x y (n + 2)).2 := by
    intro n
    have h1 := ord n
    have h2 := (nn (n + 1)).2
    conv_rhs => rw [agmSeq]
    apply Real.le_sqrt_of_sq_le; nlinarith
  have gap : ∀ n, (agmSeq x y (n + 1)).1 - (agmSeq x y (n + 1)).2 ≤
      ((agmSeq x y 1).1 - (agmSeq x y 1).2) * (1 / 2) ^ n := by
    intro n
    induction n with
    | zero => simp
    | succ n ih =>
      have h1 := mono n
      have h2 : (agmSeq x y (n + 1 + 1)).1 = ((agmSeq x y (n + 1)).1 + (agmSeq x y (n + 1)).2) / 2 := rfl
      rw [pow_succ, h2]
      have : (agmSeq x y (n + 1 + 1)).2 = (agmSeq x y (n + 2)).2 := rfl
      linarith
  have bdd : BddBelow (Set.range fun n => (agmSeq x y (n + 1)).1) :=
    ⟨0, by rintro _ ⟨n, rfl⟩; exact (nn (n + 1)).1⟩
  have lim := tendsto_atTop_ciInf anti bdd
  set m := ⨅ n, (agmSeq x y (n + 1)).1 with hm
  have gap0 : Tendsto (fun n => (agmSeq x y (n + 1)).1 - (agmSeq x y (n + 1)).2) atTop (𝓝 0) := by
    refine squeeze_zero (fun n => sub_nonneg.mpr (ord n)) gap ?_
    have := (tendsto_pow_atTop_nhds_zero_of_lt_one (r := (1/2 : ℝ)) (by norm_num) (by norm_num)).const_mul
      ((agmSeq x y 1).1 - (agmSeq x y 1).2)
    simpa using this
  refine ⟨m, (tendsto_add_atTop_iff_nat (f := fun n => (agmSeq x y n).1) 1).mp lim,
    (tendsto_add_atTop_iff_nat (f := fun n => (agmSeq x y n).2) 1).mp ?_⟩
  have := lim.sub gap0
  simpa using this

namespace DFI

theorem Contains.convex {a : DFI} {x y z : ℝ} (hx : a.Contains x) (hy : a.Contains y)
    (h : min x y ≤ z ∧ z ≤ max x y) : a.Contains z :=
  ⟨(le_min hx.1 hy.1).trans h.1, h.2.trans (max_le hx.2 hy.2)⟩

theorem contains_divInt {a r : DFI} {x : ℝ} (hx : a.Contains x) {k : Int} (hr : a.divInt k = some r) :
    r.Contains (x / k) := by
  unfold divInt at hr
  split at hr
  · simp at hr
  · simp only [Option.some.injEq] at hr; subst hr
    have := contains_mulRatio hx (1 / (k : Rat))
    push_cast at this
    rw [mul_one_div] at this
    simpa using this

theorem union_contains_between {a b : DFI} {x y z : ℝ} (hx : a.Contains x) (hy : b.Contains y)
    (h : min x y ≤ z ∧ z ≤ max x y) : (a.union b).Contains z :=
  (contains_union_left hx hy.ordered).convex (contains_union_right hx.ordered hy) h

/-- the `half` step on nonnegative ordered intervals. -/
theorem half_spec (a : DFI) (h : 0 ≤ a.lo) (ho : a.Ordered) :
    ∃ r, a.divInt 2 = some r ∧ 0 ≤ r.lo ∧ r.Ordered := by
  refine ⟨a.mulRatio (1 / ((2:Int) : Rat)), by simp [divInt], ?_, ?_⟩
  · have : ¬ ((1:Rat) / ((2:Int):Rat) < 0) := by norm_num
    unfold mulRatio
    simp only [this, if_false]
    apply Int.floor_nonneg.mpr
    have : (0:Rat) ≤ a.lo := by exact_mod_cast h
    positivity
  · exact (contains_mulRatio (contains_lower ho) _).ordered

theorem add_nonneg_lo (a b : DFI) (ha : 0 ≤ a.lo) (hb : 0 ≤ b.lo) : 0 ≤ (a.add b).lo := by
  unfold add doOp shl
  split <;> simp only <;> positivity

theorem mul_nonneg_lo (a b : DFI) (ha : 0 ≤ a.lo) (hb : 0 ≤ b.lo) (oa : a.Ordered) (ob : b.Ordered) :
    0 ≤ (a.mul b).lo := by
  unfold Ordered at oa ob
  have key : ∀ ll lh rl rh : Int, ∀ n, 0 ≤ ll → 0 ≤ lh → 0 ≤ rl → 0 ≤ rh →
      0 ≤ (mulOp ll lh rl rh n).1 := by
    intro ll lh rl rh n h1 h2 h3 h4
    obtain ⟨mn, mx, e1, -, -, -, hm, -⟩ := mulOp_bounds ll lh rl rh n
    rw [e1]
    apply Int.ediv_nonneg _ (by positivity)
    simp only [List.mem_cons, List.not_mem_nil, or_false] at hm
    rcases hm with rfl | rfl | rfl | rfl <;> positivity
  have p : ∀ k : Nat, (0:Int) ≤ 2 ^ k := fun k => by positivity
  unfold mul doOp shl
  split <;> simp only <;> apply key <;>
    first | omega | exact mul_nonneg (by omega) (p _)

theorem agmLoop_spec : ∀ (fuel : Nat) (result am gm next : DFI),
    0 ≤ am.lo → 0 ≤ gm.lo → am.Ordered → gm.Ordered → next = am.union gm →
    (result.hi - result.lo).toNat + 1 ≤ fuel → result.Ordered →
    ∃ r, agmLoop fuel result am gm next = some r ∧
      ∀ m : ℝ, result.Contains m → (∃ u v : ℝ, 0 ≤ u ∧ 0 ≤ v ∧ am.Contains u ∧ gm.Contains v ∧
        IsAGM u v m) → r.Contains m := by
  intro fuel
  induction fuel with
  | zero => intro result am gm next _ _ _ _ _ h; omega
  | succ fuel ih =>
    intro result am gm next ham hgm oam ogm hnext hf hres
    unfold agmLoop
    split
    · next hlt =>
      obtain ⟨am', e1, ham', oam'⟩ := half_spec (am.add gm) (add_nonneg_lo _ _ ham hgm)
        (contains_add (contains_lower oam) (contains_lower ogm)).ordered
      have hprod := mul_nonneg_lo am gm ham hgm oam ogm
      have oprod : (am.mul gm).Ordered := (contains_mul (contains_lower oam) (contains_lower ogm)).ordered
      cases e2 : (am.mul gm).sqrt with
      | none => rw [sqrt_eq_none_iff _ oprod] at e2; omega
      | some gm' =>
        have hgm' := (sqrt_ends e2).2.1
        have ogm' : gm'.Ordered := (contains_sqrt (contains_lower oprod) e2).ordered
        have onext : next.Ordered := by
          rw [hnext]; exact (contains_union_left (contains_lower oam) ogm).ordered
        obtain ⟨r, hr, hr2⟩ := ih next am' gm' (am'.union gm') ham' hgm' oam' ogm' rfl
          (by unfold Ordered at onext hres; omega) onext
        refine ⟨r, by simp [e1, e2, hr], ?_⟩
        rintro m hm ⟨u, v, hu, hv, cu, cv, hagm⟩
        apply hr2 m
        · rw [hnext]; exact union_contains_between cu cv (hagm.mem hu hv)
        · refine ⟨(u + v) / 2, Real.sqrt (u * v), by positivity, by positivity, ?_,
            contains_sqrt (contains_mul cu cv) e2, hagm.step⟩
          have := contains_divInt (contains_add cu cv) e1
          exact_mod_cast this
    · exact ⟨result, rfl, fun m hm _ => hm⟩

theorem agm_spec (a b : DFI) (oa : a.Ordered) (ob : b.Ordered) (ha : 0 ≤ a.lo) (hb : 0 ≤ b.lo) :
    ∃ r, a.agm b = some r ∧
      ∀ x y m : ℝ, a.Contains x → b.Contains y → IsAGM x y m → r.Contains m := by
  unfold agm
  rw [if_neg (by omega)]
  obtain ⟨am, e1, ham, oam⟩ := half_spec (a.add b) (add_nonneg_lo _ _ ha hb)
    (contains_add (contains_lower oa) (contains_lower ob)).ordered
  have oprod : (a.mul b).Ordered := (contains_mul (contains_lower oa) (contains_lower ob)).ordered
  have hprod := mul_nonneg_lo a b ha hb oa ob
  have nn : ∀ (c : DFI) (x : ℝ), 0 ≤ c.lo → c.Contains x → 0 ≤ x := by
    intro c x h hc
    have h' : (0:ℝ) ≤ c.lo := by exact_mod_cast h
    exact le_trans (by positivity) hc.1
  cases e2 : (a.mul b).sqrt with
  | none => rw [sqrt_eq_none_iff _ oprod] at e2; omega
  | some gm =>
    have hgm := (sqrt_ends e2).2.1
    have ogm : gm.Ordered := (contains_sqrt (contains_lower oprod) e2).ordered
    obtain ⟨r, hr, hr2⟩ := agmLoop_spec (((a.union b).hi - (a.union b).lo).toNat + 2) (a.union b) am gm
      (am.union gm) ham hgm oam ogm rfl (by omega)
      (contains_union_left (contains_lower oa) ob).ordered
    refine ⟨r, by simp [e1, e2, hr], ?_⟩
    intro x y m hx hy hm
    have hx0 := nn a x ha hx
    have hy0 := nn b y hb hy
    apply hr2 m (union_contains_between hx hy (hm.mem hx0 hy0))
    refine ⟨(x + y) / 2, Real.sqrt (x * y), by positivity, by positivity, ?_,
      contains_sqrt (contains_mul hx hy) e2, hm.step⟩
    have := contains_divInt (contains_add hx hy) e1
    exact_mod_cast this

end DFI
end Algebraics
