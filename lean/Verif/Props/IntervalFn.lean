import Verif.Spec.IntervalFn
import Verif.Lemmas.Agm
import Verif.Lemmas.Log
import Verif.Lemmas.Exp
import Verif.Lemmas.ConstantCache

/-!
# Property theorems C06, C07, C08, C11, C12: constants, logarithm, exponential, AGM, constant cache
-/

namespace Algebraics
open DFI

/-- what `natural_log_of_2` computes without the cache: the closure, converted. -/
def ln2Direct (n : Nat) : DFI := ((ln2Compute n).getD ⟨0, 0, 0⟩).convertLog2Denom n

/-! ## C12: the cache under every interleaving -/

/-- C12 (values). Let `compute` be a function that, at every precision, returns an enclosure of the
constant `c` at at least that precision. Then in every state reachable by any interleaving of any
number of threads no thread has panicked, and every value returned by `get(n)` has precision `n` and
contains `c`. `f` is the `f64` formula for the cache index, only assumed monotone. -/
theorem C12_cache_sound (f : Nat → Nat) (hf : Monotone f) (compute : Nat → Option DFI) (c : ℝ)
    (hc : ∀ m, ∃ r, compute m = some r ∧ m ≤ r.log2Denom ∧ r.Contains c)
    (s : Cache.State) (hs : Cache.Reachable (Cache.index f) compute s) (t : Nat) :
    (∀ n, s.thread t ≠ Cache.Thread.panicked n) ∧
    ∀ n v, s.thread t = Cache.Thread.returned n v → v.log2Denom = n ∧ v.Contains c := by
  have inv := (Cache.invariant hf (P := fun e => e.Contains c) (Q := fun e => e.Contains c)
    (fun i j _ => by
      obtain ⟨r, h1, h2, h3⟩ := hc (Cache.required (Cache.index f) j)
      exact ⟨r, h1, h2, contains_convert h3 _⟩)
    (fun e n h _ => contains_convert h n) s hs).2 t
  refine ⟨fun n h => ?_, fun n v h => ?_⟩
  · rw [h] at inv; exact inv
  · rw [h] at inv; exact inv.2

/-- C12 (the cache only improves). One step of any thread from any reachable state never shortens the
cache, and never changes the precision of an entry, so an entry is never replaced by a less precise
one; every entry encloses the constant. -/
theorem C12_cache_monotone (f : Nat → Nat) (hf : Monotone f) (compute : Nat → Option DFI) (c : ℝ)
    (hc : ∀ m, ∃ r, compute m = some r ∧ m ≤ r.log2Denom ∧ r.Contains c)
    (s s' : Cache.State) (hs : Cache.Reachable (Cache.index f) compute s)
    (hstep : Cache.Step (Cache.index f) compute s s') :
    s.cache.length ≤ s'.cache.length ∧
    ∀ (i : Nat) (e : DFI), s.cache[i]? = some e →
      ∃ e' : DFI, s'.cache[i]? = some e' ∧ e'.log2Denom = e.log2Denom ∧ e'.Contains c := by
  have inv := fun s hs => (Cache.invariant hf (P := fun e => e.Contains c) (Q := fun e => e.Contains c)
    (fun i j _ => by
      obtain ⟨r, h1, h2, h3⟩ := hc (Cache.required (Cache.index f) j)
      exact ⟨r, h1, h2, contains_convert h3 _⟩)
    (fun e n h _ => contains_convert h n) s hs).1
  have h1 := inv s hs
  have h2 := inv s' (Cache.Reachable.step s s' hs hstep)
  have hlen : s.cache.length ≤ s'.cache.length := by
    cases hstep with
    | write t n new e h => simp only; split <;> omega
    | _ => exact le_refl _
  refine ⟨hlen, fun i e he => ?_⟩
  have hi : i < s.cache.length := (List.getElem?_eq_some_iff.mp he).1
  have hi' : i < s'.cache.length := by omega
  have he' : s'.cache[i]? = some s'.cache[i] := List.getElem?_eq_getElem hi'
  obtain ⟨g1, -⟩ := h1 i e he
  obtain ⟨g2, g3⟩ := h2 i _ he'
  exact ⟨_, he', by rw [g1, g2], g3⟩

/-- C12 (progress). A thread that called `get` can always finish by its own steps alone: it never
waits for another thread's computation. -/
theorem C12_cache_progress (f : Nat → Nat) (hf : Monotone f) (compute : Nat → Option DFI) (c : ℝ)
    (hc : ∀ m, ∃ r, compute m = some r ∧ m ≤ r.log2Denom ∧ r.Contains c)
    (s : Cache.State) (hs : Cache.Reachable (Cache.index f) compute s) (t n : Nat)
    (ht : s.thread t = Cache.Thread.called n) :
    ∃ s' v, Cache.Reachable (Cache.index f) compute s' ∧ s'.thread t = Cache.Thread.returned n v ∧
      ∀ u, u ≠ t → s'.thread u = s.thread u := by
  have hc' : ∀ i j, i ≤ j → ∃ r, compute (Cache.required (Cache.index f) j) = some r ∧
      Cache.required (Cache.index f) j ≤ r.log2Denom ∧
      (r.convertLog2Denom (Cache.required (Cache.index f) i)).Contains c := fun i j _ => by
    obtain ⟨r, h1, h2, h3⟩ := hc (Cache.required (Cache.index f) j)
    exact ⟨r, h1, h2, contains_convert h3 _⟩
  have inv := (Cache.invariant hf (P := fun e => e.Contains c) (Q := fun e => e.Contains c)
    hc' (fun e n h _ => contains_convert h n) s hs).1
  cases he : s.cache[Cache.index f n]? with
  | some e =>
    refine ⟨_, e.convertLog2Denom n, Cache.Reachable.step _ _ hs (Cache.Step.hit s t n e ht he), ?_, ?_⟩
    · simp [Cache.State.set]
    · intro u hu; simp [Cache.State.set, hu]
  | none =>
    have s1 := Cache.Reachable.step _ _ hs (Cache.Step.miss s t n ht he)
    obtain ⟨new, e, q1, -⟩ := Cache.fill_spec hc' inv (List.getElem?_eq_none_iff.mp he)
    have s2 := Cache.Reachable.step _ _ s1
      (Cache.Step.compute _ t n s.cache new e (by simp [Cache.State.set]) q1)
    have s3 := Cache.Reachable.step _ _ s2
      (Cache.Step.write _ t n new e (by simp [Cache.State.set]))
    refine ⟨_, e.convertLog2Denom n, s3, by simp, ?_⟩
    intro u hu
    simp [Cache.State.set, hu]

/-- the hypotheses of C12 hold for the two constants of the code. -/
example : ∀ m, ∃ r, ln2Compute m = some r ∧ m ≤ r.log2Denom ∧ r.Contains (Real.log 2) := fun m => by
  obtain ⟨r, h1, h2, h3, -⟩ := ln2Compute_spec m
  exact ⟨r, h1, by omega, h3⟩

example : ∀ m, ∃ r, sqrt2Compute m = some r ∧ m ≤ r.log2Denom ∧ r.Contains (Real.sqrt 2) := fun m => by
  obtain ⟨r, h1, h2, h3⟩ := sqrt2Compute_spec m
  exact ⟨r, h1, by omega, h3⟩

/-- a reachable state in which one thread is in the middle of `get(100)` with a snapshot, while
another one has called `get(5)`. -/
example : ∃ s, Cache.Reachable (Cache.index fun n => 3 * Nat.log 2 (n + 1)) ln2Compute s ∧
    s.thread 0 = Cache.Thread.missed 100 [] ∧ s.thread 1 = Cache.Thread.called 5 := by
  have s1 := Cache.Reachable.step _ _ (Cache.Reachable.init (idx := Cache.index fun n => 3 * Nat.log 2 (n + 1))
    (compute := ln2Compute)) (Cache.Step.call _ 0 100 (by norm_num) (Or.inl rfl))
  have s2 := Cache.Reachable.step _ _ s1 (Cache.Step.call _ 1 5 (by norm_num) (Or.inl rfl))
  have s3 := Cache.Reachable.step _ _ s2 (Cache.Step.miss _ 0 100 (by simp [Cache.State.set])
    (by simp [Cache.State.set, Cache.init]))
  exact ⟨_, s3, by simp [Cache.State.set, Cache.init], by simp [Cache.State.set]⟩

/-! ## C06: the constants -/

/-- C06, `ln 2`: every value returned by `natural_log_of_2(n)`, in any interleaving of calls by any
number of threads, has precision `n`, contains `ln 2` and is at most three units wide. -/
theorem C06_ln2 (f : Nat → Nat) (hf : Monotone f) (s : Cache.State)
    (hs : Cache.Reachable (Cache.index f) ln2Compute s) (t n : Nat) (v : DFI)
    (h : s.thread t = Cache.Thread.returned n v) :
    v.log2Denom = n ∧ v.Contains (Real.log 2) ∧ v.ulps ≤ 3 := by
  have inv := (Cache.invariant hf (P := fun e => e.Contains (Real.log 2) ∧ e.ulps ≤ 2)
    (Q := fun e => e.Contains (Real.log 2) ∧ e.ulps ≤ 3)
    (fun i j hij => ln2_entry _ _ (Cache.required_mono hf hij))
    (fun e n h hn => ⟨contains_convert h.1 n, convert_ulps e n hn h.2⟩) s hs).2 t
  rw [h] at inv
  exact inv.2

/-- C06, `sqrt 2`. -/
theorem C06_sqrt2 (f : Nat → Nat) (hf : Monotone f) (s : Cache.State)
    (hs : Cache.Reachable (Cache.index f) sqrt2Compute s) (t n : Nat) (v : DFI)
    (h : s.thread t = Cache.Thread.returned n v) :
    v.log2Denom = n ∧ v.Contains (Real.sqrt 2) ∧ v.ulps ≤ 3 := by
  have inv := (Cache.invariant hf (P := fun e => e.Contains (Real.sqrt 2) ∧ e.ulps ≤ 2)
    (Q := fun e => e.Contains (Real.sqrt 2) ∧ e.ulps ≤ 3)
    (fun i j hij => sqrt2_entry _ _ (Cache.required_mono hf hij))
    (fun e n h hn => ⟨contains_convert h.1 n, convert_ulps e n hn h.2⟩) s hs).2 t
  rw [h] at inv
  exact inv.2

/-- C06: the value computed at any precision without a warm cache. -/
theorem C06_ln2_direct : IsLn2 ln2Direct := by
  intro n
  obtain ⟨r, h1, -, h3, h4⟩ := ln2_entry n n (le_refl _)
  unfold ln2Direct
  rw [h1]
  exact ⟨rfl, h3, by simp only [Option.getD_some]; omega⟩

/-- any value returned by the cache can be the value that `log` and `exp` see. -/
example (f : Nat → Nat) (hf : Monotone f) (s : Cache.State)
    (hs : Cache.Reachable (Cache.index f) ln2Compute s) (t n : Nat) (v : DFI)
    (h : s.thread t = Cache.Thread.returned n v) : IsLn2 (Function.update ln2Direct n v) := by
  intro m
  by_cases hm : m = n
  · subst hm
    obtain ⟨h1, h2, h3⟩ := C06_ln2 f hf s hs t m v h
    rw [Function.update_self]
    exact ⟨h1, h2, by omega⟩
  · rw [Function.update_of_ne hm]; exact C06_ln2_direct m

/-- there are reachable states in which `natural_log_of_2(100)` has returned. -/
example : ∃ s v, Cache.Reachable (Cache.index fun n => 3 * Nat.log 2 (n + 1)) ln2Compute s ∧
    s.thread 0 = Cache.Thread.returned 100 v := by
  have hf : Monotone fun n => 3 * Nat.log 2 (n + 1) := fun a b h => by
    have : Nat.log 2 (a + 1) ≤ Nat.log 2 (b + 1) := Nat.log_mono_right (by omega)
    simp only; omega
  have s1 := Cache.Reachable.step _ _ (Cache.Reachable.init (idx := Cache.index fun n => 3 * Nat.log 2 (n + 1))
    (compute := ln2Compute)) (Cache.Step.call _ 0 100 (by norm_num) (Or.inl rfl))
  obtain ⟨s', v, h1, h2, -⟩ := C12_cache_progress _ hf ln2Compute (Real.log 2) (fun m => by
    obtain ⟨r, h1, h2, h3, -⟩ := ln2Compute_spec m
    exact ⟨r, h1, by omega, h3⟩) _ s1 0 100 (by simp [Cache.State.set])
  exact ⟨s', v, h1, h2⟩

/-! ## C11: arithmetic-geometric mean -/

/-- C11. For intervals without negative members the AGM loop stops, and the result contains the AGM
of every pair of members. -/
theorem C11_agm (a b : DFI) (ha : a.Ordered) (hb : b.Ordered) (ha0 : 0 ≤ a.lo) (hb0 : 0 ≤ b.lo) :
    ∃ r, a.agm b = some r ∧ ∀ x y m : ℝ, a.Contains x → b.Contains y → IsAGM x y m → r.Contains m :=
  agm_spec a b ha hb ha0 hb0

/-- C11: a negative lower end is refused. -/
theorem C11_agm_negative (a b : DFI) (h : a.lo < 0 ∨ b.lo < 0) : a.agm b = none := by
  unfold DFI.agm; rw [if_pos h]

/-- the AGM of nonnegative numbers exists, so C11 is not vacuous. -/
example (x y : ℝ) (hx : 0 ≤ x) (hy : 0 ≤ y) : ∃ m, IsAGM x y m := exists_isAGM hx hy

example : (⟨3, 4, 2⟩ : DFI).Ordered ∧ (⟨7, 9, 3⟩ : DFI).Ordered ∧ (⟨3, 4, 2⟩ : DFI).Contains 0.8 ∧
    (⟨7, 9, 3⟩ : DFI).Contains 1.1 := by
  unfold DFI.Ordered DFI.Contains; norm_num

/-! ## C07: logarithm -/

/-- C07. On every interval of positive numbers `log` returns (none of its assertions fails), at the
same precision, and the result contains the logarithm of every member. -/
theorem C07_log (ln2 : Nat → DFI) (hln2 : IsLn2 ln2) (a : DFI) (ho : a.Ordered) (hpos : 0 < a.lo) :
    ∃ r, a.log ln2 = some r ∧ r.log2Denom = a.log2Denom ∧
      ∀ x : ℝ, a.Contains x → r.Contains (Real.log x) :=
  log_spec ln2 (fun n => (hln2 n).2.1) a ho hpos

/-- C07: intervals with a lower end that is not positive are refused. -/
theorem C07_log_not_positive (ln2 : Nat → DFI) (a : DFI) (h : a.lo ≤ 0) : a.log ln2 = none := by
  unfold DFI.log; rw [if_pos (by omega)]

example : IsLn2 ln2Direct ∧ (⟨3, 5, 2⟩ : DFI).Ordered ∧ (⟨3, 5, 2⟩ : DFI).Contains 1 :=
  ⟨C06_ln2_direct, by unfold DFI.Ordered DFI.Contains; norm_num⟩

/-! ## C08: exponential -/

/-- C08 is false: `exp` panics on the one-point interval `32 / 2^51`, whatever the state of the
`ln 2` cache (the assertion `term.lower_bound_numer.is_zero()` fails). -/
theorem C08_panics_false (ln2 : Nat → DFI) (hln2 : IsLn2 ln2) :
    (⟨32, 32, 51⟩ : DFI).exp ln2 = none ∧ (⟨32, 32, 51⟩ : DFI).Ordered :=
  ⟨exp_panics ln2 hln2, le_refl _⟩

/-- C08, proved part: whenever `exp` returns, the result has the same precision and contains `exp x`
for every member `x`, up to `2^-26` of a unit in the last place; from below exactly when the interval
has no negative member. Missing: that it returns (false, see `C08_panics_false`), and the last `2^-26`
of a unit (false, see `C08_enclosure_false` in `Props/ExpFalse.lean`: the code reduces negative arguments with the wrong side of `ln 2` and does not add the
truncated tail of the series). -/
theorem C08_exp_partial (ln2 : Nat → DFI) (hln2 : IsLn2 ln2) (a r : DFI) (hr : a.exp ln2 = some r) :
    r.log2Denom = a.log2Denom ∧ ∀ x : ℝ, a.Contains x →
      ((r.lo : ℝ) - 1 / 2 ^ 26) / 2 ^ a.log2Denom ≤ Real.exp x ∧
      (0 ≤ a.lo → (r.lo : ℝ) / 2 ^ a.log2Denom ≤ Real.exp x) ∧
      Real.exp x ≤ ((r.hi : ℝ) + 1 / 2 ^ 26) / 2 ^ a.log2Denom :=
  exp_spec ln2 hln2 a r hr

/-- `exp` does return on ordinary intervals. -/
example : (⟨-3, 5, 2⟩ : DFI).exp ln2Direct = some ⟨1, 16, 2⟩ := by decide +kernel

end Algebraics
