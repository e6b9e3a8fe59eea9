import Verif.Model.PocketReal

/-!
# Model of the cache of FFT plans  (include/dspbb/PocketFFT/pocketfft_hdronly.h:2666-2717 `get_plan`)

Every transform asks `get_plan<T>(length)` for its plan.  The cache (`static` variables, one set for every `T`)
is shared by all threads of the process and protected by a mutex.  The model is a transition system: any number
of threads call `get_plan` again and again with any lengths, and every read-modify step of a thread is one
transition, so that all interleavings are covered, also those in which a thread is preempted inside the
critical section.

Simplifications: a `std::shared_ptr` is its plan (the object lives as long as somebody holds it); the memory
allocation in `make_shared` does not fail; two consecutive accesses of shared variables in one C++ expression
(the conditions 2680, 2683, 2709) are one transition, which is no restriction because of the mutual exclusion
that is proved; memory is sequentially consistent (for the same reason).
-/

namespace Verif.PlanCache

/-- 61, 2671 `POCKETFFT_CACHE_SIZE` -/
abbrev nmax : ℕ := 16

/-- `size_t` -/
abbrev wrap : ℕ := 2 ^ 64

/-- The class `T` of plans: the member `length()`, and which plans the constructor can make for a length (the
tables of a plan are computed in uninitialised memory, so there could be several). -/
structure PlanType (P : Type) where
  length : P → ℕ
  built : ℕ → P → Prop

/-- 2672-2675 the static variables.  `log` and `uses` exist only in the model: the lengths that were looked up
or stored, the most recent one first, and the number of increments of `access_counter`. -/
structure Shared (P : Type) where
  cache : Fin nmax → Option P
  lastAccess : Fin nmax → ℕ
  counter : ℕ
  locked : Bool
  log : List ℕ
  uses : ℕ

/-- Where a thread is in `get_plan(n)`.  `ph` is `none` during the first lookup (2696-2700) and the new plan
during the second one (2702-2705). -/
inductive Pc (P : Type) where
  /-- not in `get_plan` -/
  | idle
  /-- 2697, 2703: before the lock is taken -/
  | lock (ph : Option P) (n : ℕ)
  /-- 2679-2680: before slot `i` is examined -/
  | find (ph : Option P) (n : ℕ) (i : ℕ)
  /-- 2683: slot `i` has the plan -/
  | hit (n : ℕ) (i : Fin nmax)
  /-- 2685: before `++access_counter` -/
  | bump (n : ℕ) (i : Fin nmax)
  /-- 2685: before the assignment to `last_access[i]` -/
  | mark (n : ℕ) (i : Fin nmax)
  /-- 2687-2688 -/
  | guard (n : ℕ) (i : Fin nmax)
  /-- 2690: before `cache[i]` is copied -/
  | ret (n : ℕ) (i : Fin nmax)
  /-- 2699, 2705, 2714: the lock is about to be released, the result is known -/
  | unlock (n : ℕ) (p : P)
  /-- 2700: the lock is about to be released without a result -/
  | unlockMiss (n : ℕ)
  /-- 2701 -/
  | build (n : ℕ)
  /-- 2708-2710: before slot `i` is compared with slot `l` -/
  | lru (n : ℕ) (p : P) (i : ℕ) (l : Fin nmax)
  /-- 2712 -/
  | put (n : ℕ) (p : P) (l : Fin nmax)
  /-- 2713: before `++access_counter` -/
  | bump2 (n : ℕ) (p : P) (l : Fin nmax)
  /-- 2713: before the assignment to `last_access[lru]` -/
  | mark2 (n : ℕ) (p : P) (l : Fin nmax)
  /-- `get_plan(n)` has returned `p` -/
  | done (n : ℕ) (p : P)
  /-- the constructor has thrown (length zero) -/
  | failed (n : ℕ)

/-- One transition of one thread, from `2666-2717`. -/
inductive Act {P : Type} (T : PlanType P) : Shared P → Pc P → Shared P → Pc P → Prop
  /-- a call -/
  | call (sh : Shared P) (n : ℕ) : Act T sh .idle sh (.lock none n)
  /-- 2697, 2703: waits while another thread has the lock -/
  | acquire (sh : Shared P) (ph : Option P) (n : ℕ) : sh.locked = false →
      Act T sh (.lock ph n) { sh with locked := true } (.find ph n 0)
  /-- 2680: no plan or one of another length -/
  | skip (sh : Shared P) (ph : Option P) (n i : ℕ) (h : i < nmax) :
      (∀ q, sh.cache ⟨i, h⟩ = some q → T.length q ≠ n) → Act T sh (.find ph n i) sh (.find ph n (i + 1))
  /-- 2680: found -/
  | found (sh : Shared P) (ph : Option P) (n i : ℕ) (h : i < nmax) (q : P) :
      sh.cache ⟨i, h⟩ = some q → T.length q = n → Act T sh (.find ph n i) sh (.hit n ⟨i, h⟩)
  /-- 2693, 2699: the first lookup found nothing -/
  | miss1 (sh : Shared P) (n i : ℕ) : nmax ≤ i → Act T sh (.find none n i) sh (.unlockMiss n)
  /-- 2693, 2705, 2707: the second lookup found nothing -/
  | miss2 (sh : Shared P) (p : P) (n i : ℕ) : nmax ≤ i → Act T sh (.find (some p) n i) sh (.lru n p 1 0)
  /-- 2683 -/
  | fresh (sh : Shared P) (n : ℕ) (i : Fin nmax) : sh.lastAccess i = sh.counter → Act T sh (.hit n i) sh (.ret n i)
  /-- 2683 -/
  | stale (sh : Shared P) (n : ℕ) (i : Fin nmax) : sh.lastAccess i ≠ sh.counter → Act T sh (.hit n i) sh (.bump n i)
  /-- 2685 -/
  | bump (sh : Shared P) (n : ℕ) (i : Fin nmax) :
      Act T sh (.bump n i) { sh with counter := (sh.counter + 1) % wrap, uses := sh.uses + 1 } (.mark n i)
  /-- 2685 -/
  | mark (sh : Shared P) (n : ℕ) (i : Fin nmax) :
      Act T sh (.mark n i) { sh with lastAccess := Function.update sh.lastAccess i sh.counter } (.guard n i)
  /-- 2687-2688 -/
  | guard (sh : Shared P) (n : ℕ) (i : Fin nmax) :
      Act T sh (.guard n i) { sh with lastAccess := if sh.counter = 0 then fun _ => 0 else sh.lastAccess } (.ret n i)
  /-- 2690 -/
  | ret (sh : Shared P) (n : ℕ) (i : Fin nmax) (p : P) : sh.cache i = some p → Act T sh (.ret n i) sh (.unlock n p)
  /-- the destructor of `lock_guard`, then `return` -/
  | unlock (sh : Shared P) (n : ℕ) (p : P) :
      Act T sh (.unlock n p) { sh with locked := false, log := n :: sh.log } (.done n p)
  /-- the destructor of `lock_guard` 2700 -/
  | unlockMiss (sh : Shared P) (n : ℕ) : Act T sh (.unlockMiss n) { sh with locked := false } (.build n)
  /-- 2701 -/
  | build (sh : Shared P) (n : ℕ) (p : P) : n ≠ 0 → T.built n p → Act T sh (.build n) sh (.lock (some p) n)
  /-- 2701: "zero-length FFT requested" -/
  | throw (sh : Shared P) : Act T sh (.build 0) sh (.failed 0)
  /-- 2709-2710 -/
  | less (sh : Shared P) (n : ℕ) (p : P) (i : ℕ) (l : Fin nmax) (h : i < nmax) :
      sh.lastAccess ⟨i, h⟩ < sh.lastAccess l → Act T sh (.lru n p i l) sh (.lru n p (i + 1) ⟨i, h⟩)
  /-- 2709 -/
  | notLess (sh : Shared P) (n : ℕ) (p : P) (i : ℕ) (l : Fin nmax) (h : i < nmax) :
      ¬ sh.lastAccess ⟨i, h⟩ < sh.lastAccess l → Act T sh (.lru n p i l) sh (.lru n p (i + 1) l)
  /-- 2708: the loop ends -/
  | lruEnd (sh : Shared P) (n : ℕ) (p : P) (i : ℕ) (l : Fin nmax) : nmax ≤ i → Act T sh (.lru n p i l) sh (.put n p l)
  /-- 2712 -/
  | put (sh : Shared P) (n : ℕ) (p : P) (l : Fin nmax) :
      Act T sh (.put n p l) { sh with cache := Function.update sh.cache l (some p) } (.bump2 n p l)
  /-- 2713 -/
  | bump2 (sh : Shared P) (n : ℕ) (p : P) (l : Fin nmax) :
      Act T sh (.bump2 n p l) { sh with counter := (sh.counter + 1) % wrap, uses := sh.uses + 1 } (.mark2 n p l)
  /-- 2713 -/
  | mark2 (sh : Shared P) (n : ℕ) (p : P) (l : Fin nmax) :
      Act T sh (.mark2 n p l) { sh with lastAccess := Function.update sh.lastAccess l sh.counter } (.unlock n p)
  /-- the caller goes on -/
  | leave (sh : Shared P) (n : ℕ) (p : P) : Act T sh (.done n p) sh .idle
  /-- the caller goes on -/
  | leaveFailed (sh : Shared P) (n : ℕ) : Act T sh (.failed n) sh .idle

/-- The state of the process, with threads `ι`. -/
structure State (ι P : Type) where
  sh : Shared P
  pc : ι → Pc P

/-- One thread does one step. -/
def Step {ι P : Type} (T : PlanType P) (s : State ι P) (t : ι) (s' : State ι P) : Prop :=
  Act T s.sh (s.pc t) s'.sh (s'.pc t) ∧ ∀ u, u ≠ t → s'.pc u = s.pc u

/-- 2672-2675: the initial values; no thread has called `get_plan` yet. -/
def start {ι P : Type} : State ι P where
  sh := { cache := fun _ => none, lastAccess := fun _ => 0, counter := 0, locked := false, log := [], uses := 0 }
  pc := fun _ => .idle

/-- The states a process can get into, by any schedule. -/
inductive Reach {ι P : Type} (T : PlanType P) : State ι P → Prop
  | init : Reach T start
  | step {s : State ι P} {t : ι} {s' : State ι P} : Reach T s → Step T s t s' → Reach T s'

end Verif.PlanCache

namespace Verif.Pocket

/-- `pocketfft_c`, with its member `len` (2365, 2390) -/
noncomputable def cxType : PlanCache.PlanType (ℕ × CxPlan) where
  length := Prod.fst
  built n p := p.1 = n ∧ ∃ junk, pocketfftC n junk = .ok p.2

/-- `pocketfft_r`, with its member `len` (2402, 2427) -/
noncomputable def rlType : PlanCache.PlanType (ℕ × RlPlan) where
  length := Prod.fst
  built n p := p.1 = n ∧ ∃ junkR junk, pocketfftR n junkR junk = .ok p.2

end Verif.Pocket
