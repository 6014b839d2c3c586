import Verif.Model.IntervalFn

/-!
# Model of the shared cache of constants of `src/interval_arithmetic.rs:42-121`

The cache is an `RwLock<Arc<Vec<Arc<..>>>>`. Its critical sections are the bodies of `read_cache` and
of `write_cache`; everything else is thread local. So a thread takes three atomic steps: read the
cache, compute (local), write the cache. Any number of threads interleave their steps arbitrarily.

Simplification: `log2_denom_to_cache_index` uses `f64` arithmetic
(`floor(log2(n + 1) * 3)`); it is a parameter `f`, of which only monotonicity is assumed;
`Model/CacheIndex.lean` models the `f64` arithmetic and C76 proves the monotonicity.
-/

namespace Algebraics
namespace Cache

/-- `src/interval_arithmetic.rs:52-56` with the `f64` closure `f` as a parameter. -/
def index (f : Nat → Nat) (log2Denom : Nat) : Nat := f (max log2Denom 32) - f 32

/-- the loop of `src/interval_arithmetic.rs:60-65`; `bit` is `2^k` with `k + 1` = the first argument. -/
def requiredLoop (idx : Nat → Nat) (cacheIndex : Nat) : Nat → Nat → Nat
  | 0, retval => retval
  | k + 1, retval =>
    requiredLoop idx cacheIndex k
      (if idx (retval ||| 2 ^ k) ≤ cacheIndex then retval ||| 2 ^ k else retval)

/-- `src/interval_arithmetic.rs:57-67` on a machine with `usize::BITS = 64`. -/
def required (idx : Nat → Nat) (cacheIndex : Nat) : Nat := requiredLoop idx cacheIndex 64 0

/-- the local part of `fill_cache`, `src/interval_arithmetic.rs:94-105`: the new vector and the
returned entry (`none` = panic in `compute_fn` or in the assertion). -/
def fill (idx : Nat → Nat) (compute : Nat → Option DFI) (old : List DFI) (cacheIndex : Nat) :
    Option (List DFI × DFI) := do
  let computed ← compute (required idx cacheIndex)
  let mid := (List.range' old.length (cacheIndex - old.length)).map fun i =>
    computed.convertLog2Denom (required idx i)
  if computed.log2Denom < required idx cacheIndex then none
  else
    let retval := computed.convertLog2Denom (required idx cacheIndex)
    some (old ++ mid ++ [retval], retval)

/-- where a thread is in `get` (`src/interval_arithmetic.rs:109-120`). -/
inductive Thread where
  | idle
  /-- `get(n)` was called, the cache has not been read yet -/
  | called (n : Nat)
  /-- the read missed: the thread holds a snapshot of the vector -/
  | missed (n : Nat) (snapshot : List DFI)
  /-- the thread is about to write the new vector and return the entry -/
  | filled (n : Nat) (new : List DFI) (entry : DFI)
  /-- `get(n)` returned -/
  | returned (n : Nat) (value : DFI)
  /-- `get(n)` panicked outside of the lock -/
  | panicked (n : Nat)

/-- shared cache and all threads. -/
structure State where
  cache : List DFI
  thread : Nat → Thread

/-- `ConstantCache::new`, `src/interval_arithmetic.rs:47-51`. -/
def init : State := ⟨[], fun _ => Thread.idle⟩

/-- replace the state of thread `t`. -/
def State.set (s : State) (t : Nat) (th : Thread) : State :=
  { s with thread := fun u => if u = t then th else s.thread u }

/-- one atomic step of one thread. -/
inductive Step (idx : Nat → Nat) (compute : Nat → Option DFI) : State → State → Prop
  /-- a thread that is not inside `get` calls `get(n)`, for a precision that fits `usize` -/
  | call (s : State) (t n : Nat) (hn : n < 2 ^ 64)
      (h : s.thread t = Thread.idle ∨ ∃ m v, s.thread t = Thread.returned m v) :
      Step idx compute s (s.set t (Thread.called n))
  /-- `read_cache` finds the entry, `src/interval_arithmetic.rs:74-75, 116` -/
  | hit (s : State) (t n : Nat) (e : DFI) (h : s.thread t = Thread.called n)
      (he : s.cache[idx n]? = some e) :
      Step idx compute s (s.set t (Thread.returned n (e.convertLog2Denom n)))
  /-- `read_cache` does not find the entry, `src/interval_arithmetic.rs:77` -/
  | miss (s : State) (t n : Nat) (h : s.thread t = Thread.called n)
      (he : s.cache[idx n]? = none) :
      Step idx compute s (s.set t (Thread.missed n s.cache))
  /-- the local computation of `fill_cache` -/
  | compute (s : State) (t n : Nat) (snap new : List DFI) (e : DFI)
      (h : s.thread t = Thread.missed n snap)
      (hf : fill idx compute snap (idx n) = some (new, e)) :
      Step idx compute s (s.set t (Thread.filled n new e))
  | panic (s : State) (t n : Nat) (snap : List DFI)
      (h : s.thread t = Thread.missed n snap) (hf : fill idx compute snap (idx n) = none) :
      Step idx compute s (s.set t (Thread.panicked n))
  /-- `write_cache`, `src/interval_arithmetic.rs:80-86`, and the return of `get` -/
  | write (s : State) (t n : Nat) (new : List DFI) (e : DFI)
      (h : s.thread t = Thread.filled n new e) :
      Step idx compute s
        { cache := if s.cache.length < new.length then new else s.cache,
          thread := fun u => if u = t then Thread.returned n (e.convertLog2Denom n) else s.thread u }

/-- states reachable from the empty cache with all threads idle, by any interleaving. -/
inductive Reachable (idx : Nat → Nat) (compute : Nat → Option DFI) : State → Prop
  | init : Reachable idx compute init
  | step (s s' : State) : Reachable idx compute s → Step idx compute s s' → Reachable idx compute s'

end Cache
end Algebraics
