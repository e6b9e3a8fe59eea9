import Verif.Lemmas.PlanLru
import Verif.Lemmas.PlanProgress
import Verif.Props.PocketReal

/-!
# Property C79: the cache of FFT plans, under every schedule of every number of threads
-/

namespace Verif.PlanCache

variable {ι P : Type} {T : PlanType P}

/-- A thread is in a call of `get_plan(n)`: it has made the call, which has not ended yet. -/
def InCall (pc : Pc P) : Prop := pc ≠ .idle ∧ (∀ n p, pc ≠ .done n p) ∧ ∀ n, pc ≠ .failed n

/-- There is a plan for `n` in the cache. -/
def Cached (T : PlanType P) (sh : Shared P) (n : ℕ) : Prop := ∃ i q, sh.cache i = some q ∧ T.length q = n

/-- Fewer than 16 other lengths were used since `n` was used. -/
def Recent (log : List ℕ) (n : ℕ) : Prop := ∃ since before, log = since ++ n :: before ∧ n ∉ since ∧ since.toFinset.card < 16

theorem inCall_rank {pc : Pc P} : InCall pc ↔ rank pc ≠ 0 := by
  unfold InCall
  rw [show rank pc ≠ 0 ↔ ¬ rank pc = 0 from Iff.rfl, rank_zero]
  push Not
  rfl

theorem recent_mem {log : List ℕ} {n : ℕ} (h : log.toFinset.card ≤ 16) (hn : n ∈ log) : Recent log n := by
  obtain ⟨a, b, h1, h2⟩ := List.append_of_mem hn |>.elim fun a h => h.elim fun b h => (⟨a, b, h, trivial⟩ : ∃ a b, log = a ++ n :: b ∧ True)
  clear h2
  induction a generalizing log with
  | nil => exact ⟨[], b, h1, by simp, by simp⟩
  | cons x xs ih =>
    have hsub : (xs ++ n :: b).toFinset ⊆ log.toFinset := by
      rw [h1]; intro y hy
      simp only [List.mem_toFinset, List.cons_append, List.mem_cons] at hy ⊢
      exact Or.inr hy
    by_cases e : x = n
    · exact ⟨[], xs ++ n :: b, by rw [h1, e]; rfl, by simp, by simp⟩
    · obtain ⟨s, c, g1, g2, -⟩ := ih ((Finset.card_le_card hsub).trans h) (by simp) rfl
      refine ⟨x :: s, c, by rw [h1, List.cons_append, g1]; rfl, by simp [g2, Ne.symm e], ?_⟩
      have hs : insert n (x :: s).toFinset ⊆ log.toFinset := by
        intro y hy
        rw [h1, List.cons_append, g1]
        simp only [Finset.mem_insert, List.mem_toFinset, List.mem_cons, List.mem_append] at hy ⊢
        tauto
      have := Finset.card_le_card hs
      rw [Finset.card_insert_of_notMem (by simp [g2, Ne.symm e])] at this
      omega

/-! ### C79 -/

/-- **C79**: whatever the threads do and however they are scheduled, a call of `get_plan(n)` that returns gives a
plan the constructor made for the length `n`. -/
theorem C79_plan_of_length (hb : ∀ n p, T.built n p → T.length p = n) {s : State ι P} (hr : Reach T s) (t : ι) (n : ℕ) (p : P)
    (ht : s.pc t = .done n p) : T.built n p ∧ T.length p = n := by
  have := (inv_reach hb hr).holds t
  rw [ht] at this
  exact ⟨this, hb n p this⟩

/-- **C79**: a call fails only for the length zero. -/
theorem C79_failure {s : State ι P} (hr : Reach T s) (t : ι) (n : ℕ) (ht : s.pc t = .failed n) : n = 0 :=
  failed_zero hr t n ht

/-- **C79**: no two threads are ever between taking and releasing the lock: a thread that changes the cache, the time
stamps or the counter does it alone, and while it works nobody else changes them or takes the lock. -/
theorem C79_mutual_exclusion (hb : ∀ n p, T.built n p → T.length p = n) {s s' : State ι P} (hr : Reach T s) (t u : ι)
    (hs : Step T s u s') (ht : Crit (s.pc t)) (hu : u ≠ t) : s'.sh = s.sh ∧ ¬ Crit (s'.pc u) := by
  have I := inv_reach hb hr
  have hc : ¬ Crit (s.pc u) := fun h => hu (I.mutex u t h ht)
  rcases act_outside hs.1 hc with h | ⟨h, -, -⟩
  · exact h
  · rw [I.crit_locked t ht] at h; cases h

/-- **C79**: what is shared changes only while the lock is held, and the thread that changes it is one that holds it. -/
theorem C79_changes_locked (hb : ∀ n p, T.built n p → T.length p = n) {s s' : State ι P} (hr : Reach T s) (t : ι)
    (hs : Step T s t s') (hc : s'.sh.cache ≠ s.sh.cache ∨ s'.sh.lastAccess ≠ s.sh.lastAccess ∨ s'.sh.counter ≠ s.sh.counter) :
    s.sh.locked = true ∧ Crit (s.pc t) := by
  have h : Crit (s.pc t) := by
    by_contra h
    rcases act_outside hs.1 h with ⟨e, -⟩ | ⟨-, e, -⟩ <;> rw [e] at hc <;> simp at hc
  exact ⟨(inv_reach hb hr).crit_locked t h, h⟩

/-- **C79**: the cache never has two plans of one length, although two threads may build plans of the same length at
the same time. -/
theorem C79_no_duplicates (hb : ∀ n p, T.built n p → T.length p = n) {s : State ι P} (hr : Reach T s) (i j : Fin 16) (p q : P)
    (hi : s.sh.cache i = some p) (hj : s.sh.cache j = some q) (h : T.length p = T.length q) : i = j :=
  (inv_reach hb hr).inj i j _ ⟨p, hi, h⟩ ⟨q, hj, rfl⟩

/-- **C79**: a plan in the cache is one the constructor made. -/
theorem C79_cached_built (hb : ∀ n p, T.built n p → T.length p = n) {s : State ι P} (hr : Reach T s) (i : Fin 16) (p : P)
    (hi : s.sh.cache i = some p) : T.built (T.length p) p :=
  (inv_reach hb hr).good i p hi

theorem cached_lens {sh : Shared P} {n : ℕ} : Cached T sh n ↔ ∃ i, lens T sh.cache i = some n := by
  constructor
  · rintro ⟨i, q, h1, h2⟩; exact ⟨i, lens_has.2 ⟨q, h1, h2⟩⟩
  · rintro ⟨i, h⟩
    obtain ⟨q, h1, h2⟩ := lens_has.1 h
    exact ⟨i, q, h1, h2⟩

/-- **C79**: the cache keeps exactly the 16 most recently used lengths: whenever the lock is free (and the 64 bit
counter has not overflown), a length has a plan in the cache if and only if it was used, and fewer than 16 other
lengths were used since. -/
theorem C79_least_recently_used (hb : ∀ n p, T.built n p → T.length p = n) {s : State ι P} (hr : Reach T s)
    (hl : s.sh.locked = false) (hu : s.sh.uses < 2 ^ 64) (n : ℕ) : Cached T s.sh n ↔ Recent s.sh.log n := by
  obtain ⟨-, h⟩ := (stamp_reach hb hr hu).1 hl
  rw [cached_lens]
  exact lru_iff h n

/-- **C79**: a plan is built only for a length that is not among the 16 most recently used ones … -/
theorem C79_build_only_if_old (hb : ∀ n p, T.built n p → T.length p = n) {s : State ι P} (hr : Reach T s)
    (hu : s.sh.uses < 2 ^ 64) (t : ι) (n : ℕ) (ht : s.pc t = .unlockMiss n) : ¬ Recent s.sh.log n := by
  have h1 := (stamp_reach hb hr hu).2 t (by rw [ht]; trivial)
  have h2 := (inv_reach hb hr).knows t
  rw [ht] at h1 h2
  intro hrec
  obtain ⟨i, hi⟩ := (lru_iff h1.2 n).2 hrec
  exact h2 i (lens_has.1 hi)

/-- **C79**: … so that a process that uses at most 16 lengths finds every length it has used before in the cache. -/
theorem C79_few_lengths (hb : ∀ n p, T.built n p → T.length p = n) {s : State ι P} (hr : Reach T s)
    (hu : s.sh.uses < 2 ^ 64) (hf : s.sh.log.toFinset.card ≤ 16) (t : ι) (n : ℕ) (ht : s.pc t = .unlockMiss n) :
    n ∉ s.sh.log :=
  fun hn => C79_build_only_if_old hb hr hu t n ht (recent_mem hf hn)

/-- **C79**: there is no deadlock: as long as some thread is in a call, some thread in a call can do a step. -/
theorem C79_progress (hb : ∀ n p, T.built n p → T.length p = n) (he : ∀ n, n ≠ 0 → ∃ p, T.built n p) {s : State ι P}
    (hr : Reach T s) (t : ι) (ht : InCall (s.pc t)) : ∃ u s', InCall (s.pc u) ∧ Step T s u s' := by
  obtain ⟨u, s', h1, h2⟩ := progress hb he hr t (inCall_rank.1 ht)
  exact ⟨u, s', inCall_rank.2 h1, h2⟩

/-- **C79**: there is no livelock: in every execution, a thread that is in the same call from step 0 to step `m`
has done at most 58 steps of its own. -/
theorem C79_bounded_steps {s : ℕ → State ι P} {th : ℕ → ι} (hs : ∀ k, Step T (s k) (th k) (s (k + 1))) (t : ι)
    [DecidableEq ι] (m : ℕ) (hin : ∀ k < m, InCall ((s k).pc t)) :
    ((Finset.range m).filter (fun k => th k = t)).card ≤ 58 := by
  have h1 := steps_le hs t m fun k hk => inCall_rank.1 (hin k hk)
  have h2 := rank_le ((s 0).pc t)
  omega

/-- **C79**: if the other threads stop outside the critical section, wherever that is, a call comes to its end. -/
theorem C79_call_ends (hb : ∀ n p, T.built n p → T.length p = n) (he : ∀ n, n ≠ 0 → ∃ p, T.built n p) {s : State ι P}
    (hr : Reach T s) (hl : s.sh.locked = false) (t : ι) (ht : s.pc t = .idle) (n : ℕ) (hn : n ≠ 0) :
    ∃ s' p, Run T t s s' ∧ Reach T s' ∧ s'.pc t = .done n p ∧ ∀ u, u ≠ t → s'.pc u = s.pc u := by
  obtain ⟨s', p, h1, -, h3⟩ := run_call hb he t hr hl ht n hn
  exact ⟨s', p, h1, run_reach h1 hr, h3, fun u hu => run_others h1 u hu⟩

end Verif.PlanCache

namespace Verif.Pocket
open PlanCache Complex

theorem cx_built (n : ℕ) (p : ℕ × CxPlan) (h : cxType.built n p) : cxType.length p = n := h.1

theorem rl_built (n : ℕ) (p : ℕ × RlPlan) (h : rlType.built n p) : rlType.length p = n := h.1

theorem cx_exists (n : ℕ) (h : n ≠ 0) : ∃ p, cxType.built n p := by
  obtain ⟨p, e, -⟩ := pocketfftC_ok (Nat.pos_of_ne_zero h) (fun _ => 0)
  exact ⟨(n, p), rfl, _, e⟩

theorem rl_exists (n : ℕ) (h : n ≠ 0) : ∃ p, rlType.built n p := by
  obtain ⟨p, e, -⟩ := pocketfftR_ok (Nat.pos_of_ne_zero h) (fun _ => 0) (fun _ => 0)
  exact ⟨(n, p), rfl, _, _, e⟩

/-- **C79**: a complex transform with the plan `get_plan` hands out, in any reachable state of any number of threads,
computes the discrete Fourier transform (as in C76, where the plan was made for the transform). -/
theorem C79_complex_transform {ι : Type} {s : State ι (ℕ × CxPlan)} (hr : Reach cxType s) (t : ι) (x out : List ℂ)
    (p : ℕ × CxPlan) (ht : s.pc t = .done x.length p) (hx : x ≠ []) (ho : out.length = x.length) (fwd : Bool) (fct : ℝ)
    (junk : ℕ → ℂ) :
    ∃ X, c2cWith p.2 fwd fct x out junk = .ok X ∧ X.length = x.length ∧ ∀ k, k < x.length →
      sig X k = fct * ∑ j ∈ Finset.range x.length, sig x j * rootOfUnity x.length ((if fwd then -1 else 1) * ((j : ℤ) * k)) := by
  have hn := List.length_pos_iff.2 hx
  obtain ⟨⟨-, junk', e⟩, -⟩ := C79_plan_of_length cx_built hr t _ p ht
  obtain ⟨q, e1, e2⟩ := pocketfftC_ok hn junk'
  rw [e1] at e
  obtain rfl : q = p.2 := by injection e
  have h := c2cWith_ok hn e2 fwd fct (fun m => sig x m) ho junk
  rw [← list_tab] at h
  refine ⟨_, h, by simp [tab], fun k hk => ?_⟩
  rw [sig_tab _ hk, mul_comm]
  congr 1
  apply Finset.sum_congr rfl
  intro m _
  rw [w_ru]
  congr 2

/-- **C79**: likewise the forward transform of real data … -/
theorem C79_real_forward {ι : Type} {s : State ι (ℕ × RlPlan)} (hr : Reach rlType s) (t : ι) (x : List ℝ) (out : List ℂ)
    (p : ℕ × RlPlan) (ht : s.pc t = .done x.length p) (hx : x ≠ []) (ho : x.length / 2 + 1 ≤ out.length) (fct : ℝ)
    (junkR : ℕ → ℝ) (junk : ℕ → ℂ) :
    ∃ X, pr2cWith p.2 fct x out junkR junk = .ok X ∧ X.length = out.length ∧
      (∀ k, k ≤ x.length / 2 → sig X k = fct * dftAt (x.map ofReal) k) ∧ ∀ k, x.length / 2 < k → sig X k = sig out k := by
  have hn := List.length_pos_iff.2 hx
  obtain ⟨⟨-, junkR', junk', e⟩, -⟩ := C79_plan_of_length rl_built hr t _ p ht
  obtain ⟨q, e1, e2⟩ := pocketfftR_ok hn junkR' junk'
  rw [e1] at e
  obtain rfl : q = p.2 := by injection e
  have h := pr2cWith_ok hn e2 fct (fun m => sig x m) (fun m => sig out m) ho junkR junk
  rw [← list_tabR, ← list_tab] at h
  refine ⟨_, h, by simp [tab], fun k hk => ?_, fun k hk => ?_⟩
  · rw [sig_tab _ (by omega), if_pos (by omega), rdft_dft]
  · by_cases hl : k < out.length
    · rw [sig_tab _ hl, if_neg (by omega)]
    · simp [sig, tab, hl]

/-- **C79**: … and the backward transform. -/
theorem C79_real_backward {ι : Type} {s : State ι (ℕ × RlPlan)} (hr : Reach rlType s) (t : ι) (X : List ℂ) (out : List ℝ)
    (p : ℕ × RlPlan) (ht : s.pc t = .done out.length p) (ho : out ≠ []) (hX : out.length / 2 + 1 ≤ X.length) (fct : ℝ)
    (junkR : ℕ → ℝ) (junk : ℕ → ℂ) :
    ∃ x, pc2rWith p.2 fct X out junkR junk = .ok x ∧ x.length = out.length ∧ ∀ j, j < out.length →
      sig x j = fct * ((sig X 0).re
        + 2 * ∑ k ∈ Finset.range ((out.length - 1) / 2),
            (sig X (k + 1) * rootOfUnity out.length ((j : ℤ) * (k + 1 : ℕ))).re
        + if out.length % 2 = 0 then (sig X (out.length / 2)).re * (-1) ^ j else 0) := by
  have hn := List.length_pos_iff.2 ho
  obtain ⟨⟨-, junkR', junk', e⟩, -⟩ := C79_plan_of_length rl_built hr t _ p ht
  obtain ⟨q, e1, e2⟩ := pocketfftR_ok hn junkR' junk'
  rw [e1] at e
  obtain rfl : q = p.2 := by injection e
  have h := pc2rWith_ok hn e2 fct (fun m => sig X m) hX (out := out) rfl junkR junk
  rw [← list_tab] at h
  refine ⟨_, h, by simp [tab], fun j hj => ?_⟩
  rw [sig_tabR _ hj, idft_ru hn]

/-- a case where the hypotheses hold: thread 0 has got a plan of length 3 while thread 1, preempted in the middle of
its own call with length 3, waits for the lock -/
example : ∃ (s : State (Fin 2) (ℕ × CxPlan)) (p : ℕ × CxPlan), Reach cxType s ∧ s.pc 0 = .done 3 p ∧ s.pc 1 = .lock none 3 ∧
    ∃ X, c2cWith p.2 true 1 [1, 4, 2] [0, 0, 0] (fun i => (i : ℂ)) = .ok X ∧ sig X 0 = 7 := by
  have h1 : Step cxType (start : State (Fin 2) (ℕ × CxPlan)) 1 ⟨_, _⟩ := step_of_act (.call start.sh 3)
  obtain ⟨s, p, -, hr, h2, h3⟩ := C79_call_ends cx_built cx_exists (Reach.init.step h1) rfl 0 (by simp [start]) 3 (by norm_num)
  refine ⟨s, p, hr, h2, by rw [h3 1 (by decide)]; simp, ?_⟩
  obtain ⟨X, e, -, h⟩ := C79_complex_transform hr 0 [1, 4, 2] [0, 0, 0] p h2 (by simp) rfl true 1 (fun i => (i : ℂ))
  refine ⟨X, e, ?_⟩
  rw [h 0 (by simp)]
  simp [Finset.sum_range_succ, sig, rootOfUnity]
  norm_num

/-- a case where the hypotheses hold: after two calls of different lengths both plans are in the cache -/
example : ∃ s : State (Fin 2) (ℕ × RlPlan), Reach rlType s ∧ s.sh.locked = false ∧ (∃ p, s.pc 0 = .done 3 p) ∧
    ∃ p, s.pc 1 = .done 5 p := by
  obtain ⟨s, p, h1, h2, h3⟩ := run_call rl_built rl_exists (0 : Fin 2) Reach.init rfl rfl 3 (by norm_num)
  have hr := run_reach h1 Reach.init
  obtain ⟨s', q, g1, g2, g3⟩ := run_call rl_built rl_exists (1 : Fin 2) hr h2 (by rw [run_others h1 1 (by decide)]; rfl) 5 (by norm_num)
  exact ⟨s', run_reach g1 hr, g2, ⟨p, by rw [run_others g1 0 (by decide), h3]⟩, q, g3⟩

end Verif.Pocket
