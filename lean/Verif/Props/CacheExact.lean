import Verif.Lemmas.CacheExact
import Verif.Props.IntervalFn

/-!
Property C67: the constants do not depend on what was asked before
(`/repo/src/interval_arithmetic.rs:42-121, 547-590`).
-/

namespace Algebraics

open DFI

/-- C67: whatever was requested before, and however the threads interleave, `sqrt_2(n)` returns the
tightest interval around the square root of two with denominator `2^n`. -/
theorem C67_sqrt2_exact (f : Nat → Nat) (hf : Monotone f) (s : Cache.State)
    (hs : Cache.Reachable (Cache.index f) sqrt2Compute s) (t n : Nat) (v : DFI)
    (h : s.thread t = Cache.Thread.returned n v) :
    v = ⟨⌊Real.sqrt 2 * 2 ^ n⌋, ⌈Real.sqrt 2 * 2 ^ n⌉, n⟩ := by
  have inv := (Cache.invariant hf (P := Tightest (Real.sqrt 2)) (Q := Tightest (Real.sqrt 2))
    (fun i j hij => by
      obtain ⟨r, h1, h2, h3⟩ := sqrt2_tight (Cache.required (Cache.index f) j)
      exact ⟨r, h1, h2.ge, h3.convert _ (h2.symm ▸ Cache.required_mono hf hij)⟩)
    (fun e n h hn => h.convert n hn) s hs).2 t
  rw [h] at inv
  obtain ⟨-, rfl, h1, h2⟩ := inv
  cases v
  simp only at h1 h2 ⊢
  rw [h1, h2]

/-- C67: two calls of `sqrt_2(n)`, in any two histories, return the same interval. -/
theorem C67_sqrt2_same (f f' : Nat → Nat) (hf : Monotone f) (hf' : Monotone f') (s s' : Cache.State)
    (hs : Cache.Reachable (Cache.index f) sqrt2Compute s)
    (hs' : Cache.Reachable (Cache.index f') sqrt2Compute s') (t t' n : Nat) (v v' : DFI)
    (h : s.thread t = Cache.Thread.returned n v) (h' : s'.thread t' = Cache.Thread.returned n v') :
    v = v' := by
  rw [C67_sqrt2_exact f hf s hs t n v h, C67_sqrt2_exact f' hf' s' hs' t' n v' h']

/-- C67: `natural_log_of_2(n)` is at each end at most one unit away from the tightest interval, in every
history. -/
theorem C67_ln2_near (f : Nat → Nat) (hf : Monotone f) (s : Cache.State)
    (hs : Cache.Reachable (Cache.index f) ln2Compute s) (t n : Nat) (v : DFI)
    (h : s.thread t = Cache.Thread.returned n v) :
    v.log2Denom = n ∧
    (v.lo = ⌊Real.log 2 * 2 ^ n⌋ ∨ v.lo = ⌊Real.log 2 * 2 ^ n⌋ - 1) ∧
    (v.hi = ⌈Real.log 2 * 2 ^ n⌉ ∨ v.hi = ⌈Real.log 2 * 2 ^ n⌉ + 1) := by
  have inv := (Cache.invariant hf (P := Near (Real.log 2)) (Q := Near (Real.log 2))
    (fun i j hij => ln2_near _ _ (Cache.required_mono hf hij))
    (fun e n h hn => h.convert n hn) s hs).2 t
  rw [h] at inv
  obtain ⟨-, rfl, h1, h2, h3, h4⟩ := inv
  exact ⟨rfl, by omega, by omega⟩

/-- C67: two calls of `natural_log_of_2(n)`, in any two histories, differ by at most one unit at each
end. -/
theorem C67_ln2_same (f f' : Nat → Nat) (hf : Monotone f) (hf' : Monotone f') (s s' : Cache.State)
    (hs : Cache.Reachable (Cache.index f) ln2Compute s)
    (hs' : Cache.Reachable (Cache.index f') ln2Compute s') (t t' n : Nat) (v v' : DFI)
    (h : s.thread t = Cache.Thread.returned n v) (h' : s'.thread t' = Cache.Thread.returned n v') :
    |v.lo - v'.lo| ≤ 1 ∧ |v.hi - v'.hi| ≤ 1 := by
  obtain ⟨-, h1, h2⟩ := C67_ln2_near f hf s hs t n v h
  obtain ⟨-, h3, h4⟩ := C67_ln2_near f' hf' s' hs' t' n v' h'
  rw [abs_le, abs_le]
  omega

/-- two histories: in the first `sqrt_2(3)` is called on an empty cache; in the second `sqrt_2(100)` was
called by another thread before. -/
example : ∃ s s' v v', Cache.Reachable (Cache.index fun n => 3 * Nat.log 2 (n + 1)) sqrt2Compute s ∧
    Cache.Reachable (Cache.index fun n => 3 * Nat.log 2 (n + 1)) sqrt2Compute s' ∧
    s.thread 0 = Cache.Thread.returned 3 v ∧ (∃ w, s'.thread 1 = Cache.Thread.returned 100 w) ∧
    s'.thread 0 = Cache.Thread.returned 3 v' ∧ v = v' ∧ v = ⟨11, 12, 3⟩ := by
  have hf : Monotone fun n => 3 * Nat.log 2 (n + 1) := fun a b h => by
    have : Nat.log 2 (a + 1) ≤ Nat.log 2 (b + 1) := Nat.log_mono_right (by omega)
    simp only; omega
  have hc : ∀ m, ∃ r, sqrt2Compute m = some r ∧ m ≤ r.log2Denom ∧ r.Contains (Real.sqrt 2) :=
    fun m => by
      obtain ⟨r, h1, h2, h3⟩ := sqrt2Compute_spec m
      exact ⟨r, h1, by omega, h3⟩
  have s1 := Cache.Reachable.step _ _ (Cache.Reachable.init (idx := Cache.index fun n => 3 * Nat.log 2 (n + 1))
    (compute := sqrt2Compute)) (Cache.Step.call _ 0 3 (by norm_num) (Or.inl rfl))
  obtain ⟨s, v, h1, h2, -⟩ := C12_cache_progress _ hf sqrt2Compute _ hc _ s1 0 3
    (by simp [Cache.State.set])
  have r1 := Cache.Reachable.step _ _ (Cache.Reachable.init (idx := Cache.index fun n => 3 * Nat.log 2 (n + 1))
    (compute := sqrt2Compute)) (Cache.Step.call _ 1 100 (by norm_num) (Or.inl rfl))
  obtain ⟨s2, w, h3, h4, h5⟩ := C12_cache_progress _ hf sqrt2Compute _ hc _ r1 1 100
    (by simp [Cache.State.set])
  have r2 := Cache.Reachable.step _ _ h3 (Cache.Step.call _ 0 3 (by norm_num)
    (Or.inl (by rw [h5 0 (by omega)]; simp [Cache.State.set, Cache.init])))
  obtain ⟨s', v', h6, h7, h8⟩ := C12_cache_progress _ hf sqrt2Compute _ hc _ r2 0 3
    (by simp [Cache.State.set])
  refine ⟨s, s', v, v', h1, h6, h2, ⟨w, ?_⟩, h7, C67_sqrt2_same _ _ hf hf s s' h1 h6 0 0 3 v v' h2 h7, ?_⟩
  · rw [h8 1 (by omega)]; simpa [Cache.State.set] using h4
  · rw [C67_sqrt2_exact _ hf s h1 0 3 v h2]
    have hs : Real.sqrt 2 * Real.sqrt 2 = 2 := Real.mul_self_sqrt (by norm_num)
    have hp := Real.sqrt_nonneg 2
    congr 1
    · rw [Int.floor_eq_iff]; constructor <;> push_cast <;> nlinarith
    · rw [Int.ceil_eq_iff]; constructor <;> push_cast <;> nlinarith

end Algebraics
