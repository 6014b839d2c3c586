import Verif.Model.ConstantCache
import Verif.Lemmas.Exp

namespace Algebraics
namespace Cache

theorem index_mono {f : Nat → Nat} (hf : Monotone f) : Monotone (index f) := by
  intro a b h
  unfold index
  have : f (max a 32) ≤ f (max b 32) := hf (by omega)
  omega

/-- the bit search finds the largest admissible value. -/
theorem requiredLoop_spec {idx : Nat → Nat} (hm : Monotone idx) (c : Nat) : ∀ (k r : Nat),
    2 ^ k ∣ r → idx r ≤ c → (∀ n, idx n ≤ c → n < 2 ^ 64 → n < r + 2 ^ k) →
    idx (requiredLoop idx c k r) ≤ c ∧ ∀ n, idx n ≤ c → n < 2 ^ 64 → n ≤ requiredLoop idx c k r := by
  intro k
  induction k with
  | zero =>
    intro r _ h2 h3
    refine ⟨h2, fun n a b => ?_⟩
    have := h3 n a b
    unfold requiredLoop
    omega
  | succ k ih =>
    intro r h1 h2 h3
    unfold requiredLoop
    have hor : r ||| 2 ^ k = r + 2 ^ k := by
      obtain ⟨m, rfl⟩ := h1
      have hlt : (2:Nat) ^ k < 2 ^ (k + 1) := Nat.pow_lt_pow_right (by omega) (by omega)
      exact (Nat.two_pow_add_eq_or_of_lt hlt m).symm
    rw [hor]
    have hd : 2 ^ k ∣ r := (pow_dvd_pow 2 (Nat.le_succ k)).trans h1
    split
    · next h =>
      apply ih _ (Dvd.dvd.add hd (dvd_refl _)) h
      intro n a b
      have := h3 n a b
      rw [pow_succ] at this; omega
    · next h =>
      apply ih _ hd h2
      intro n a _
      by_contra hc
      push Not at hc
      exact h ((hm hc).trans a)

theorem index_zero (f : Nat → Nat) : index f 0 = 0 := by simp [index]

theorem le_required {f : Nat → Nat} (hf : Monotone f) (n : Nat) (hn : n < 2 ^ 64) :
    n ≤ required (index f) (index f n) :=
  (requiredLoop_spec (index_mono hf) (index f n) 64 0 (dvd_zero _) (by rw [index_zero]; omega)
    (fun m _ h => by omega)).2 n (le_refl _) hn

theorem requiredLoop_lt (idx : Nat → Nat) (c : Nat) : ∀ (k r : Nat), 2 ^ k ∣ r → r + 2 ^ k ≤ 2 ^ 64 →
    requiredLoop idx c k r < 2 ^ 64 := by
  intro k
  induction k with
  | zero => intro r _ h; unfold requiredLoop; omega
  | succ k ih =>
    intro r h1 h2
    unfold requiredLoop
    have hor : r ||| 2 ^ k = r + 2 ^ k := by
      obtain ⟨m, rfl⟩ := h1
      have hlt : (2:Nat) ^ k < 2 ^ (k + 1) := Nat.pow_lt_pow_right (by omega) (by omega)
      exact (Nat.two_pow_add_eq_or_of_lt hlt m).symm
    have hd : 2 ^ k ∣ r := (pow_dvd_pow 2 (Nat.le_succ k)).trans h1
    rw [hor]
    rw [pow_succ] at h2
    split
    · exact ih _ (Dvd.dvd.add hd (dvd_refl _)) (by omega)
    · exact ih _ hd (by omega)

theorem required_lt (idx : Nat → Nat) (c : Nat) : required idx c < 2 ^ 64 :=
  requiredLoop_lt idx c 64 0 (dvd_zero _) (by omega)

theorem required_mono {f : Nat → Nat} (hf : Monotone f) : Monotone (required (index f)) := by
  intro a b hab
  have h1 := requiredLoop_spec (index_mono hf) a 64 0 (dvd_zero _) (by rw [index_zero]; omega)
    (fun m _ h => by omega)
  have h2 := requiredLoop_spec (index_mono hf) b 64 0 (dvd_zero _) (by rw [index_zero]; omega)
    (fun m _ h => by omega)
  exact h2.2 _ (h1.1.trans hab) (required_lt _ _)

/-- an entry list is good for `P` when entry `i` has the precision required for `i` and satisfies `P`. -/
def GoodList (idx : Nat → Nat) (P : DFI → Prop) (l : List DFI) : Prop :=
  ∀ i e, l[i]? = some e → e.log2Denom = required idx i ∧ P e

def GoodThread (idx : Nat → Nat) (P Q : DFI → Prop) : Thread → Prop
  | .idle => True
  | .called n => n < 2 ^ 64
  | .missed n snap => n < 2 ^ 64 ∧ GoodList idx P snap ∧ snap.length ≤ idx n
  | .filled n new e => n < 2 ^ 64 ∧ GoodList idx P new ∧ new.length = idx n + 1 ∧
      e.log2Denom = required idx (idx n) ∧ P e
  | .returned n v => n < 2 ^ 64 ∧ v.log2Denom = n ∧ Q v
  | .panicked _ => False

theorem fill_spec {idx : Nat → Nat} {compute : Nat → Option DFI} {P : DFI → Prop}
    (hc : ∀ i j, i ≤ j → ∃ r, compute (required idx j) = some r ∧ required idx j ≤ r.log2Denom ∧
      P (r.convertLog2Denom (required idx i)))
    {old : List DFI} {c : Nat} (ho : GoodList idx P old) (hl : old.length ≤ c) :
    ∃ new e, fill idx compute old c = some (new, e) ∧ GoodList idx P new ∧ new.length = c + 1 ∧
      e.log2Denom = required idx c ∧ P e := by
  obtain ⟨r, h1, h2, h3⟩ := hc c c (le_refl _)
  unfold fill
  simp only [h1, Option.bind_eq_bind, Option.bind_some]
  rw [if_neg (by omega)]
  refine ⟨_, _, rfl, ?_, ?_, rfl, h3⟩
  · intro i e hi
    by_cases hi1 : i < old.length
    · rw [List.append_assoc, List.getElem?_append_left hi1] at hi
      exact ho i e hi
    · by_cases hi2 : i < c
      · rw [List.getElem?_append_left (by simp; omega), List.getElem?_append_right (by omega)] at hi
        simp only [List.getElem?_map, Option.map_eq_some_iff] at hi
        obtain ⟨j, hj, rfl⟩ := hi
        rw [List.getElem?_range' (by omega)] at hj
        simp only [Option.some.injEq] at hj
        obtain ⟨r', g1, g2, g3⟩ := hc i c (by omega)
        rw [h1] at g1
        simp only [Option.some.injEq] at g1
        subst g1
        have : j = i := by omega
        subst this
        exact ⟨rfl, g3⟩
      · rw [List.getElem?_append_right (by simp; omega)] at hi
        simp only [List.length_append, List.length_map, List.length_range'] at hi
        have hic : i - (old.length + (c - old.length)) = i - c := by omega
        rw [hic] at hi
        by_cases hi3 : i = c
        · subst hi3
          simp at hi
          subst hi
          exact ⟨rfl, h3⟩
        · exfalso
          rw [List.getElem?_eq_none (by simp; omega)] at hi
          simp at hi
  · simp; omega

theorem invariant {f : Nat → Nat} (hf : Monotone f) {compute : Nat → Option DFI} {P Q : DFI → Prop}
    (hc : ∀ i j, i ≤ j → ∃ r, compute (required (index f) j) = some r ∧
      required (index f) j ≤ r.log2Denom ∧ P (r.convertLog2Denom (required (index f) i)))
    (hPQ : ∀ e n, P e → n ≤ e.log2Denom → Q (e.convertLog2Denom n)) (s : State)
    (hs : Reachable (index f) compute s) :
    GoodList (index f) P s.cache ∧ ∀ t, GoodThread (index f) P Q (s.thread t) := by
  induction hs with
  | init => exact ⟨by intro i e h; simp [Cache.init] at h, fun t => trivial⟩
  | step s s' _ hstep ih =>
    obtain ⟨ih1, ih2⟩ := ih
    have upd : ∀ (t : Nat) (th : Thread), GoodThread (index f) P Q th →
        ∀ u, GoodThread (index f) P Q ((s.set t th).thread u) := by
      intro t th h u
      unfold State.set
      simp only
      split
      · exact h
      · exact ih2 u
    cases hstep with
    | call t n hn h => exact ⟨ih1, upd t _ hn⟩
    | hit t n e h he =>
      refine ⟨ih1, upd t _ ?_⟩
      have hn := ih2 t
      rw [h] at hn
      obtain ⟨g1, g2⟩ := ih1 _ _ he
      exact ⟨hn, rfl, hPQ _ _ g2 (by rw [g1]; exact le_required hf n hn)⟩
    | miss t n h he =>
      refine ⟨ih1, upd t _ ?_⟩
      have hn := ih2 t
      rw [h] at hn
      exact ⟨hn, ih1, List.getElem?_eq_none_iff.mp he⟩
    | compute t n snap new e h hfl =>
      refine ⟨ih1, upd t _ ?_⟩
      have hn := ih2 t
      rw [h] at hn
      obtain ⟨hn, g1, g2⟩ := hn
      obtain ⟨new', e', q1, q2, q3, q4, q5⟩ := fill_spec hc g1 g2
      rw [hfl] at q1
      simp only [Option.some.injEq, Prod.mk.injEq] at q1
      obtain ⟨rfl, rfl⟩ := q1
      exact ⟨hn, q2, q3, q4, q5⟩
    | panic t n snap h hfl =>
      have hn := ih2 t
      rw [h] at hn
      obtain ⟨hn, g1, g2⟩ := hn
      obtain ⟨new', e', q1, -⟩ := fill_spec hc g1 g2
      rw [hfl] at q1
      simp at q1
    | write t n new e h =>
      have hn := ih2 t
      rw [h] at hn
      obtain ⟨hn, g1, g2, g3, g4⟩ := hn
      refine ⟨?_, ?_⟩
      · simp only
        split
        · exact g1
        · exact ih1
      · intro u
        simp only
        split
        · exact ⟨hn, rfl, hPQ _ _ g4 (by rw [g3]; exact le_required hf n hn)⟩
        · exact ih2 u

end Cache

namespace DFI

/-- narrow enough: at most 2 ulps, or at most 3 after the conversion. -/
theorem ln2_entry (m i : Nat) (him : i ≤ m) :
    ∃ r, ln2Compute m = some r ∧ m ≤ r.log2Denom ∧
      (r.convertLog2Denom i).Contains (Real.log 2) ∧ (r.convertLog2Denom i).ulps ≤ 2 := by
  obtain ⟨r, h1, h2, h3, h4⟩ := ln2Compute_spec m
  refine ⟨r, h1, by omega, contains_convert h3 i, ?_⟩
  have hk : r.log2Denom = i + (m - i + 10 + Nat.log 2 (m + 1)) := by omega
  have hu := convert_ulps_down r i _ hk
  set k := m - i + 10 + Nat.log 2 (m + 1) with hkdef
  have hlog : m + 1 < 2 ^ (Nat.log 2 (m + 1) + 1) := Nat.lt_pow_succ_log_self (by omega) _
  have hlog' : Nat.log 2 (m + 1) ≤ m := by
    have := Nat.log_lt_self 2 (x := m + 1) (by omega); omega
  have hpk : 2 ^ (Nat.log 2 (m + 1) + 1) * 2 ^ 9 ≤ 2 ^ k := by
    rw [← pow_add]; exact Nat.pow_le_pow_right (by omega) (by omega)
  have hle : (r.ulps : Int) ≤ 2 ^ k := by
    have : m + 10 + Nat.log 2 (m + 1) ≤ 2 ^ k := by omega
    have : ((m + 10 + Nat.log 2 (m + 1) : Nat) : Int) ≤ ((2 ^ k : Nat) : Int) := by exact_mod_cast this
    push_cast at this
    omega
  have hp : (0:Int) < 2 ^ k := by positivity
  by_contra hc
  push Not at hc
  have : 3 * 2 ^ k ≤ (r.convertLog2Denom i).ulps * 2 ^ k := by
    have : (3:Int) ≤ (r.convertLog2Denom i).ulps := by omega
    gcongr
  omega

theorem convert_ulps (e : DFI) (n : Nat) (hn : n ≤ e.log2Denom) (hu : e.ulps ≤ 2) :
    (e.convertLog2Denom n).ulps ≤ 3 := by
  have h := convert_ulps_down e n (e.log2Denom - n) (by omega)
  have hp : (1:Int) ≤ 2 ^ (e.log2Denom - n) := by
    have : (0:Int) < 2 ^ (e.log2Denom - n) := by positivity
    omega
  by_contra hc
  push Not at hc
  have : 4 * 2 ^ (e.log2Denom - n) ≤ (e.convertLog2Denom n).ulps * 2 ^ (e.log2Denom - n) := by
    have : (4:Int) ≤ (e.convertLog2Denom n).ulps := by omega
    gcongr
  omega

theorem sqrt2_ulps (n : Nat) (r : DFI) (h : sqrt2Compute n = some r) : r.ulps ≤ 1 := by
  unfold sqrt2Compute at h
  obtain ⟨h1, h2, h3, -, -, h4, h5, h6, h7⟩ := sqrt_ends h
  unfold fromInt fromDyadicFraction at h4 h5 h6 h7
  simp only at h4 h5 h6 h7
  unfold ulps
  by_contra hc
  have h8 := h7 (by omega)
  have : (r.lo + 1) * (r.lo + 1) ≤ (r.hi - 1) * (r.hi - 1) := by nlinarith
  omega

theorem sqrt2_entry (m i : Nat) (him : i ≤ m) :
    ∃ r, sqrt2Compute m = some r ∧ m ≤ r.log2Denom ∧
      (r.convertLog2Denom i).Contains (Real.sqrt 2) ∧ (r.convertLog2Denom i).ulps ≤ 2 := by
  obtain ⟨r, h1, h2, h3⟩ := sqrt2Compute_spec m
  refine ⟨r, h1, by omega, contains_convert h3 i, ?_⟩
  have h4 := sqrt2_ulps m r h1
  have hu := convert_ulps_down r i (m - i) (by omega)
  have hp : (1:Int) ≤ 2 ^ (m - i) := by
    have : (0:Int) < 2 ^ (m - i) := by positivity
    omega
  by_contra hc
  push Not at hc
  have : 3 * 2 ^ (m - i) ≤ (r.convertLog2Denom i).ulps * 2 ^ (m - i) := by
    have : (3:Int) ≤ (r.convertLog2Denom i).ulps := by omega
    gcongr
  omega

end DFI
end Algebraics
