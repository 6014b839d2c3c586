import Verif.Model.ConstantCache
import Mathlib.Data.Finset.Basic

/-!
# The lock of the cache of constants, `src/interval_arithmetic.rs:42-121`

`Model/ConstantCache.lean` takes the two critical sections as single steps and lets a panic end a thread.
Here the `RwLock` is modelled: who holds a read guard, who holds the write guard, and whether the lock
is poisoned. Every step of `get` between two points where another thread can be scheduled is a step.
The computation of the constant may panic at any time (`outcome m none`), and a thread that panicked may
call `get` again (`catch_unwind`).

The semantics of `std::sync::RwLock` are those of its documentation: any number of readers or one writer;
a panic while the write guard is held poisons the lock, one while a read guard is held does not; `read`
and `write` of a poisoned lock are `Err`, on which `unwrap` panics.
Not modelled: running out of memory (`Arc::new`, `Vec::with_capacity` abort the process), and fairness.
-/

namespace Algebraics
namespace Cache
namespace Locked

/-- where a thread is in `get` (`src/interval_arithmetic.rs:109-120`). -/
inductive Pc where
  | idle
  /-- `get(n)` was called; next is `self.cache.read()`, line 73 -/
  | called (n : Nat)
  /-- holds a read guard; next is `read_lock.get(cache_index)`, line 74 -/
  | reading (n : Nat)
  /-- holds a read guard and a clone of the entry, line 75 -/
  | hit (n : Nat) (entry : DFI)
  /-- holds a read guard and a clone of the vector, line 77 -/
  | noEntry (n : Nat) (snapshot : List DFI)
  /-- holds nothing; next is `compute_fn`, line 94 -/
  | missed (n : Nat) (snapshot : List DFI)
  /-- the new vector is ready; next is `self.cache.write()`, line 81 -/
  | filled (n : Nat) (new : List DFI) (entry : DFI)
  /-- holds the write guard; next is the comparison of the lengths, line 83 -/
  | writing (n : Nat) (new : List DFI) (entry : DFI)
  /-- holds the write guard and found its vector longer; next is the store, line 84 -/
  | storing (n : Nat) (new : List DFI) (entry : DFI)
  /-- holds the write guard; next is its drop, line 86 -/
  | written (n : Nat) (entry : DFI)
  /-- `get(n)` returned -/
  | returned (n : Nat) (value : DFI)
  /-- `get(n)` panicked, and its guards were dropped -/
  | panicked (n : Nat)

/-- the lock with its contents, and all threads. -/
structure State where
  cache : List DFI
  /-- the threads that hold a read guard -/
  readers : Finset Nat
  /-- the thread that holds the write guard -/
  writer : Option Nat
  poisoned : Bool
  pc : Nat → Pc

/-- `ConstantCache::new`, `src/interval_arithmetic.rs:47-51`. -/
def init : State := ⟨[], ∅, none, false, fun _ => Pc.idle⟩

/-- thread `t` goes to `p`. -/
def State.set (s : State) (t : Nat) (p : Pc) : State :=
  { s with pc := fun u => if u = t then p else s.pc u }

/-- one step of one thread. `outcome m o`: a call of `compute_fn(m)` can end with `o`, `none` for a
panic. -/
inductive Step (idx : Nat → Nat) (outcome : Nat → Option DFI → Prop) : State → State → Prop
  /-- a thread that is not inside `get` calls `get(n)` -/
  | call (s : State) (t n : Nat) (hn : n < 2 ^ 64)
      (h : s.pc t = Pc.idle ∨ (∃ m v, s.pc t = Pc.returned m v) ∨ ∃ m, s.pc t = Pc.panicked m) :
      Step idx outcome s (s.set t (Pc.called n))
  /-- `self.cache.read().unwrap()`, `src/interval_arithmetic.rs:73`: waits for the writer -/
  | read (s : State) (t n : Nat) (h : s.pc t = Pc.called n) (hw : s.writer = none)
      (hp : s.poisoned = false) :
      Step idx outcome s { s.set t (Pc.reading n) with readers := insert t s.readers }
  /-- the same on a poisoned lock -/
  | readPoisoned (s : State) (t n : Nat) (h : s.pc t = Pc.called n) (hw : s.writer = none)
      (hp : s.poisoned = true) :
      Step idx outcome s (s.set t (Pc.panicked n))
  /-- lines 74-75 -/
  | lookHit (s : State) (t n : Nat) (e : DFI) (h : s.pc t = Pc.reading n)
      (he : s.cache[idx n]? = some e) :
      Step idx outcome s (s.set t (Pc.hit n e))
  /-- line 77 -/
  | lookMiss (s : State) (t n : Nat) (h : s.pc t = Pc.reading n) (he : s.cache[idx n]? = none) :
      Step idx outcome s (s.set t (Pc.noEntry n s.cache))
  /-- the read guard is dropped, line 79, and `get` returns, line 119 -/
  | unreadHit (s : State) (t n : Nat) (e : DFI) (h : s.pc t = Pc.hit n e) :
      Step idx outcome s
        { s.set t (Pc.returned n (e.convertLog2Denom n)) with readers := s.readers.erase t }
  /-- the read guard is dropped, line 79 -/
  | unreadMiss (s : State) (t n : Nat) (snap : List DFI) (h : s.pc t = Pc.noEntry n snap) :
      Step idx outcome s { s.set t (Pc.missed n snap) with readers := s.readers.erase t }
  /-- lines 94-105; no guard is held -/
  | compute (s : State) (t n : Nat) (snap new : List DFI) (e : DFI) (o : Option DFI)
      (h : s.pc t = Pc.missed n snap) (ho : outcome (required idx (idx n)) o)
      (hf : fill idx (fun _ => o) snap (idx n) = some (new, e)) :
      Step idx outcome s (s.set t (Pc.filled n new e))
  /-- `compute_fn` or the assertion of line 102 panics; no guard is held, so nothing is poisoned -/
  | computePanics (s : State) (t n : Nat) (snap : List DFI) (o : Option DFI)
      (h : s.pc t = Pc.missed n snap) (ho : outcome (required idx (idx n)) o)
      (hf : fill idx (fun _ => o) snap (idx n) = none) :
      Step idx outcome s (s.set t (Pc.panicked n))
  /-- `self.cache.write().unwrap()`, `src/interval_arithmetic.rs:81`: waits for readers and writer -/
  | write (s : State) (t n : Nat) (new : List DFI) (e : DFI) (h : s.pc t = Pc.filled n new e)
      (hw : s.writer = none) (hr : s.readers = ∅) (hp : s.poisoned = false) :
      Step idx outcome s { s.set t (Pc.writing n new e) with writer := some t }
  /-- the same on a poisoned lock -/
  | writePoisoned (s : State) (t n : Nat) (new : List DFI) (e : DFI) (h : s.pc t = Pc.filled n new e)
      (hw : s.writer = none) (hr : s.readers = ∅) (hp : s.poisoned = true) :
      Step idx outcome s (s.set t (Pc.panicked n))
  /-- line 83, the new vector is longer -/
  | longer (s : State) (t n : Nat) (new : List DFI) (e : DFI) (h : s.pc t = Pc.writing n new e)
      (hl : s.cache.length < new.length) :
      Step idx outcome s (s.set t (Pc.storing n new e))
  /-- line 83, it is not -/
  | notLonger (s : State) (t n : Nat) (new : List DFI) (e : DFI) (h : s.pc t = Pc.writing n new e)
      (hl : ¬ s.cache.length < new.length) :
      Step idx outcome s (s.set t (Pc.written n e))
  /-- line 84 -/
  | store (s : State) (t n : Nat) (new : List DFI) (e : DFI) (h : s.pc t = Pc.storing n new e) :
      Step idx outcome s { s.set t (Pc.written n e) with cache := new }
  /-- the write guard is dropped, line 86, and `get` returns, line 119 -/
  | unwrite (s : State) (t n : Nat) (e : DFI) (h : s.pc t = Pc.written n e) :
      Step idx outcome s { s.set t (Pc.returned n (e.convertLog2Denom n)) with writer := none }

/-- `s'` can be reached from `s`. -/
inductive Steps (idx : Nat → Nat) (outcome : Nat → Option DFI → Prop) (s : State) : State → Prop
  | refl : Steps idx outcome s s
  | step (s' s'' : State) : Steps idx outcome s s' → Step idx outcome s' s'' → Steps idx outcome s s''

/-- states reachable from the new cache with all threads idle, by any interleaving. -/
def Reachable (idx : Nat → Nat) (outcome : Nat → Option DFI → Prop) (s : State) : Prop :=
  Steps idx outcome init s

end Locked
end Cache
end Algebraics
