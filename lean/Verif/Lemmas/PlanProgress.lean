import Verif.Lemmas.PlanCache
import Mathlib.Data.Finset.Card

/-!
# Every call of `get_plan` ends
-/

set_option linter.unusedVariables false
set_option linter.unusedSimpArgs false
set_option linter.unusedTactic false
set_option linter.unreachableTactic false

namespace Verif.PlanCache

variable {ι P : Type} {T : PlanType P}

/-- The steps a thread can still do in its call. -/
def rank : Pc P → ℕ
  | .idle | .done _ _ | .failed _ => 0
  | .unlock _ _ => 1
  | .ret _ _ => 2
  | .guard _ _ => 3
  | .mark _ _ => 4
  | .bump _ _ => 5
  | .hit _ _ => 6
  | .mark2 _ _ _ => 2
  | .bump2 _ _ _ => 3
  | .put _ _ _ => 4
  | .lru _ _ i _ => 5 + (16 - i)
  | .find (some _) _ i => 21 + (16 - i)
  | .lock (some _) _ => 38
  | .build _ => 39
  | .unlockMiss _ => 40
  | .find none _ i => 41 + (16 - i)
  | .lock none _ => 58

theorem rank_le (pc : Pc P) : rank pc ≤ 58 := by
  cases pc with
  | lock ph n => cases ph <;> simp [rank]
  | find ph n i => cases ph <;> simp [rank] <;> omega
  | lru n p i l => simp [rank]; omega
  | _ => simp [rank]

theorem act_rank {sh sh' : Shared P} {pc pc' : Pc P} (h : Act T sh pc sh' pc') (h0 : rank pc ≠ 0) : rank pc' < rank pc := by
  cases h with
  | acquire ph n hl => cases ph <;> simp [rank]
  | skip ph n i hi hs => cases ph <;> simp [rank] <;> simp only [nmax] at hi <;> omega
  | found ph n i hi q h1 h2 => cases ph <;> simp [rank] <;> simp only [nmax] at hi <;> omega
  | less n p i l hi hl => simp [rank]; simp only [nmax] at hi; omega
  | notLess n p i l hi hl => simp [rank]; simp only [nmax] at hi; omega
  | _ => simp_all [rank] <;> omega

theorem rank_zero {pc : Pc P} : rank pc = 0 ↔ pc = .idle ∨ (∃ n p, pc = .done n p) ∨ ∃ n, pc = .failed n := by
  cases pc with
  | lock ph n => cases ph <;> simp [rank]
  | find ph n i => cases ph <;> simp [rank]
  | _ => simp [rank]

/-- a thread in the critical section is never stuck -/
theorem crit_enabled {s : State ι P} (I : Inv T s) (t : ι) (hc : Crit (s.pc t)) :
    ∃ sh' pc', Act T s.sh (s.pc t) sh' pc' := by
  have hk := I.knows t
  rcases h : s.pc t with _ | ⟨ph, n⟩ | ⟨ph, n, i⟩ | ⟨n, i⟩ | ⟨n, i⟩ | ⟨n, i⟩ | ⟨n, i⟩ | ⟨n, i⟩ | ⟨n, p⟩ | n | n | ⟨n, p, i, l⟩ |
    ⟨n, p, l⟩ | ⟨n, p, l⟩ | ⟨n, p, l⟩ | ⟨n, p⟩ | n <;> rw [h] at hc hk
  case find =>
    by_cases hi : i < nmax
    · by_cases hq : ∃ q, s.sh.cache ⟨i, hi⟩ = some q ∧ T.length q = n
      · obtain ⟨q, h1, h2⟩ := hq
        exact ⟨_, _, .found _ ph n i hi q h1 h2⟩
      · exact ⟨_, _, .skip _ ph n i hi fun q h1 h2 => hq ⟨q, h1, h2⟩⟩
    · rcases ph with _ | p
      · exact ⟨_, _, .miss1 _ n i (by omega)⟩
      · exact ⟨_, _, .miss2 _ p n i (by omega)⟩
  case hit =>
    by_cases e : s.sh.lastAccess i = s.sh.counter
    · exact ⟨_, _, .fresh _ n i e⟩
    · exact ⟨_, _, .stale _ n i e⟩
  case bump => exact ⟨_, _, .bump _ n i⟩
  case mark => exact ⟨_, _, .mark _ n i⟩
  case guard => exact ⟨_, _, .guard _ n i⟩
  case ret =>
    obtain ⟨q, h1, -⟩ := hk
    exact ⟨_, _, .ret _ n i q h1⟩
  case unlock => exact ⟨_, _, .unlock _ n p⟩
  case unlockMiss => exact ⟨_, _, .unlockMiss _ n⟩
  case lru =>
    by_cases hi : i < nmax
    · by_cases e : s.sh.lastAccess ⟨i, hi⟩ < s.sh.lastAccess l
      · exact ⟨_, _, .less _ n p i l hi e⟩
      · exact ⟨_, _, .notLess _ n p i l hi e⟩
    · exact ⟨_, _, .lruEnd _ n p i l (by omega)⟩
  case put => exact ⟨_, _, .put _ n p l⟩
  case bump2 => exact ⟨_, _, .bump2 _ n p l⟩
  case mark2 => exact ⟨_, _, .mark2 _ n p l⟩
  all_goals exact hc.elim

open Classical in
/-- a step of a thread becomes a step of the process -/
theorem step_of_act {s : State ι P} {t : ι} {sh' : Shared P} {pc' : Pc P} (h : Act T s.sh (s.pc t) sh' pc') :
    Step T s t ⟨sh', Function.update s.pc t pc'⟩ :=
  ⟨by simpa using h, fun u hu => by simp [hu]⟩

/-- outside, a thread in a call waits only for the lock -/
theorem outside_enabled (hb : ∀ n, n ≠ 0 → ∃ p, T.built n p) {s : State ι P} (t : ι) (hc : ¬ Crit (s.pc t))
    (h : rank (s.pc t) ≠ 0) (hl : s.sh.locked = false ∨ ∃ n, s.pc t = .build n) : ∃ sh' pc', Act T s.sh (s.pc t) sh' pc' := by
  rcases e : s.pc t with _ | ⟨ph, n⟩ | ⟨ph, n, i⟩ | ⟨n, i⟩ | ⟨n, i⟩ | ⟨n, i⟩ | ⟨n, i⟩ | ⟨n, i⟩ | ⟨n, p⟩ | n | n | ⟨n, p, i, l⟩ |
    ⟨n, p, l⟩ | ⟨n, p, l⟩ | ⟨n, p, l⟩ | ⟨n, p⟩ | n <;> rw [e] at hc h hl
  case lock =>
    rcases hl with hl | ⟨m, hm⟩
    · exact ⟨_, _, .acquire _ ph n hl⟩
    · cases hm
  case build =>
    by_cases hn : n = 0
    · subst hn; exact ⟨_, _, .throw _⟩
    · obtain ⟨p, hp⟩ := hb n hn
      exact ⟨_, _, .build _ n p hn hp⟩
  all_goals first | exact absurd trivial hc | exact absurd rfl h

/-- someone can always go on -/
theorem progress (hb : ∀ n p, T.built n p → T.length p = n) (he : ∀ n, n ≠ 0 → ∃ p, T.built n p) {s : State ι P}
    (hr : Reach T s) (t : ι) (ht : rank (s.pc t) ≠ 0) : ∃ u s', rank (s.pc u) ≠ 0 ∧ Step T s u s' := by
  have I := inv_reach hb hr
  by_cases hl : s.sh.locked = false
  · have hc : ¬ Crit (s.pc t) := fun h => by rw [I.crit_locked t h] at hl; cases hl
    obtain ⟨sh', pc', h⟩ := outside_enabled he t hc ht (Or.inl hl)
    exact ⟨t, _, ht, step_of_act h⟩
  · obtain ⟨u, hu⟩ := I.locked_crit (by simpa using hl)
    obtain ⟨sh', pc', h⟩ := crit_enabled I u hu
    refine ⟨u, _, fun h0 => ?_, step_of_act h⟩
    rcases rank_zero.1 h0 with e | ⟨n, p, e⟩ | ⟨n, e⟩ <;> rw [e] at hu <;> exact hu

/-- while a thread is in one call, it does at most `rank` steps -/
theorem steps_le {s : ℕ → State ι P} {th : ℕ → ι} (hs : ∀ k, Step T (s k) (th k) (s (k + 1))) (t : ι) [DecidableEq ι] (m : ℕ)
    (hin : ∀ k < m, rank ((s k).pc t) ≠ 0) :
    ((Finset.range m).filter (fun k => th k = t)).card + rank ((s m).pc t) ≤ rank ((s 0).pc t) := by
  induction m with
  | zero => simp
  | succ m ih =>
    have h1 := ih fun k hk => hin k (by omega)
    obtain ⟨ha, hu⟩ := hs m
    rw [Finset.range_add_one, Finset.filter_insert]
    by_cases e : th m = t
    · rw [if_pos e, Finset.card_insert_of_notMem (by simp)]
      rw [e] at ha
      have := act_rank ha (hin m (by omega))
      omega
    · rw [if_neg e, hu t (fun h => e h.symm)]
      exact h1

/-- A thread alone: some steps of thread `t`. -/
inductive Run (T : PlanType P) (t : ι) : State ι P → State ι P → Prop
  | refl (s : State ι P) : Run T t s s
  | step {s s' s'' : State ι P} : Run T t s s' → Step T s' t s'' → Run T t s s''

theorem run_reach {t : ι} {s s' : State ι P} (h : Run T t s s') (hr : Reach T s) : Reach T s' := by
  induction h with
  | refl => exact hr
  | step _ hs ih => exact ih.step hs

theorem run_trans {t : ι} {s s' s'' : State ι P} (h : Run T t s s') (h' : Run T t s' s'') : Run T t s s'' := by
  induction h' with
  | refl => exact h
  | step _ hs ih => exact .step ih hs

theorem run_others {t : ι} {s s' : State ι P} (h : Run T t s s') (u : ι) (hu : u ≠ t) : s'.pc u = s.pc u := by
  induction h with
  | refl => rfl
  | step _ hs ih => rw [hs.2 u hu, ih]

/-- The length of the call a thread is in. -/
def arg : Pc P → Option ℕ
  | .idle => none
  | .lock _ n | .find _ n _ | .hit n _ | .bump n _ | .mark n _ | .guard n _ | .ret n _ | .unlock n _ | .unlockMiss n
  | .build n | .lru n _ _ _ | .put n _ _ | .bump2 n _ _ | .mark2 n _ _ | .done n _ | .failed n => some n

theorem act_arg {sh sh' : Shared P} {pc pc' : Pc P} (h : Act T sh pc sh' pc') (h0 : rank pc ≠ 0) : arg pc' = arg pc := by
  cases h <;> simp_all [arg, rank]

/-- a thread that has the lock, or could get it, comes to the end of its call alone -/
theorem run_end (hb : ∀ n p, T.built n p → T.length p = n) (he : ∀ n, n ≠ 0 → ∃ p, T.built n p) (t : ι) (r : ℕ) :
    ∀ {s : State ι P}, Reach T s → rank (s.pc t) ≤ r → (s.sh.locked = false ∨ Crit (s.pc t)) →
      ∃ s', Run T t s s' ∧ s'.sh.locked = false ∧ rank (s'.pc t) = 0 ∧ arg (s'.pc t) = arg (s.pc t) := by
  induction r with
  | zero =>
    intro s hr h0 hl
    have h0 : rank (s.pc t) = 0 := by omega
    refine ⟨s, .refl s, ?_, h0, rfl⟩
    rcases hl with hl | hc
    · exact hl
    · rcases rank_zero.1 h0 with e | ⟨n, p, e⟩ | ⟨n, e⟩ <;> rw [e] at hc <;> exact hc.elim
  | succ r ih =>
    intro s hr h hl
    by_cases h0 : rank (s.pc t) = 0
    · exact ih hr (by omega) hl
    have I := inv_reach hb hr
    have ⟨sh', pc', ha⟩ : ∃ sh' pc', Act T s.sh (s.pc t) sh' pc' := by
      by_cases hc : Crit (s.pc t)
      · exact crit_enabled I t hc
      · exact outside_enabled he t hc h0 (Or.inl (hl.resolve_right hc))
    have hst := step_of_act ha
    have hlt := act_rank ha h0
    have hl' : sh'.locked = false ∨ Crit pc' := by
      by_cases hc : Crit (s.pc t)
      · rcases act_inside ha hc with ⟨-, h1⟩ | ⟨h1, -⟩
        · exact Or.inr h1
        · exact Or.inl h1
      · rcases act_outside ha hc with ⟨h1, -⟩ | ⟨-, -, h1⟩
        · left; rw [h1]; exact hl.resolve_right hc
        · exact Or.inr h1
    obtain ⟨s', g1, g2, g3, g4⟩ := ih (hr.step hst) (by simp only [Function.update_self]; omega) (by simpa using hl')
    refine ⟨s', run_trans (.step (.refl s) hst) g1, g2, g3, ?_⟩
    rw [g4]
    simp only [Function.update_self]
    exact act_arg ha h0

theorem failed_zero {s : State ι P} (hr : Reach T s) (t : ι) (n : ℕ) (h : s.pc t = .failed n) : n = 0 := by
  induction hr with
  | init => cases h
  | @step s u s' hr hs ih =>
    obtain ⟨ha, hu⟩ := hs
    by_cases e : t = u
    · subst e
      rw [h] at ha
      obtain ⟨pc, hpc⟩ : ∃ pc, pc = s.pc t := ⟨_, rfl⟩
      obtain ⟨sh, hsh⟩ : ∃ sh, sh = s'.sh := ⟨_, rfl⟩
      rw [← hpc, ← hsh] at ha
      cases ha
      rfl
    · rw [hu t e] at h
      exact ih h

/-- from any state in which the lock is free, a call comes to an end if the other threads wait -/
theorem run_call (hb : ∀ n p, T.built n p → T.length p = n) (he : ∀ n, n ≠ 0 → ∃ p, T.built n p) (t : ι) {s : State ι P}
    (hr : Reach T s) (hl : s.sh.locked = false) (ht : s.pc t = .idle) (n : ℕ) (hn : n ≠ 0) :
    ∃ s' p, Run T t s s' ∧ s'.sh.locked = false ∧ s'.pc t = .done n p := by
  have hst : Step T s t ⟨s.sh, _⟩ := step_of_act (by rw [ht]; exact .call s.sh n)
  obtain ⟨s', g1, g2, g3, g4⟩ := run_end hb he t 58 (hr.step hst) (rank_le _) (Or.inl hl)
  simp only [Function.update_self, arg] at g4
  have hr' := run_reach g1 (hr.step hst)
  rcases rank_zero.1 g3 with e | ⟨m, p, e⟩ | ⟨m, e⟩
  · rw [e] at g4; cases g4
  · rw [e] at g4
    simp only [arg, Option.some.injEq] at g4
    exact ⟨s', p, run_trans (.step (.refl s) hst) g1, g2, by rw [e, g4]⟩
  · have := failed_zero hr' t m e
    rw [e] at g4
    simp only [arg, Option.some.injEq] at g4
    omega

end Verif.PlanCache
