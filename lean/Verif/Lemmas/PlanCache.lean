import Verif.Model.PlanCache

/-!
# Invariants of the cache of plans
-/

set_option linter.unusedVariables false
set_option linter.unusedSimpArgs false
set_option linter.unusedTactic false
set_option linter.unreachableTactic false

namespace Verif.PlanCache

variable {ι P : Type} {T : PlanType P}

/-- The program points between taking and releasing the lock. -/
def Crit : Pc P → Prop
  | .find _ _ _ | .hit _ _ | .bump _ _ | .mark _ _ | .guard _ _ | .ret _ _ | .unlock _ _ | .unlockMiss _
  | .lru _ _ _ _ | .put _ _ _ | .bump2 _ _ _ | .mark2 _ _ _ => True
  | .idle | .lock _ _ | .build _ | .done _ _ | .failed _ => False

/-- Slot `i` has the plan for `n`. -/
def Has (T : PlanType P) (c : Fin nmax → Option P) (i : Fin nmax) (n : ℕ) : Prop := ∃ q, c i = some q ∧ T.length q = n

/-- What a thread knows: about the plan it holds, … -/
def Holds (T : PlanType P) : Pc P → Prop
  | .lock (some p) n | .find (some p) n _ | .unlock n p | .lru n p _ _ | .put n p _ | .bump2 n p _ | .mark2 n p _
  | .done n p => T.built n p
  | _ => True

/-- … and about the cache. -/
def Knows (T : PlanType P) (sh : Shared P) : Pc P → Prop
  | .find _ n i => i ≤ nmax ∧ ∀ j : Fin nmax, j.val < i → ¬ Has T sh.cache j n
  | .hit n i | .bump n i | .mark n i | .guard n i | .ret n i => Has T sh.cache i n
  | .unlockMiss n => ∀ j, ¬ Has T sh.cache j n
  | .lru n _ i l => i ≤ nmax ∧ (∀ j, ¬ Has T sh.cache j n) ∧ ∀ j : Fin nmax, j.val < i → sh.lastAccess l ≤ sh.lastAccess j
  | .put n _ l => (∀ j, ¬ Has T sh.cache j n) ∧ ∀ j : Fin nmax, sh.lastAccess l ≤ sh.lastAccess j
  | _ => True

structure Inv (T : PlanType P) (s : State ι P) : Prop where
  crit_locked : ∀ t, Crit (s.pc t) → s.sh.locked = true
  mutex : ∀ t u, Crit (s.pc t) → Crit (s.pc u) → t = u
  locked_crit : s.sh.locked = true → ∃ t, Crit (s.pc t)
  good : ∀ i q, s.sh.cache i = some q → T.built (T.length q) q
  inj : ∀ i j n, Has T s.sh.cache i n → Has T s.sh.cache j n → i = j
  holds : ∀ t, Holds T (s.pc t)
  knows : ∀ t, Knows T s.sh (s.pc t)

/-- outside the critical section nothing shared is changed, except that the lock is taken -/
theorem act_outside {sh sh' : Shared P} {pc pc' : Pc P} (h : Act T sh pc sh' pc') (hc : ¬ Crit pc) :
    (sh' = sh ∧ ¬ Crit pc') ∨ (sh.locked = false ∧ sh' = { sh with locked := true } ∧ Crit pc') := by
  cases h <;> simp_all [Crit]

theorem act_inside {sh sh' : Shared P} {pc pc' : Pc P} (h : Act T sh pc sh' pc') (hc : Crit pc) :
    (sh'.locked = sh.locked ∧ Crit pc') ∨ (sh'.locked = false ∧ ¬ Crit pc') := by
  cases h <;> simp_all [Crit]

theorem knows_congr {sh sh' : Shared P} {pc : Pc P} (h1 : sh'.cache = sh.cache) (h2 : sh'.lastAccess = sh.lastAccess) :
    Knows T sh' pc ↔ Knows T sh pc := by
  cases pc <;> simp [Knows, h1, h2]

theorem knows_out {sh sh' : Shared P} {pc : Pc P} (hc : ¬ Crit pc) : Knows T sh pc := by
  cases pc <;> simp_all [Crit, Knows]

/-- the thread itself -/
theorem act_local (hb : ∀ n p, T.built n p → T.length p = n) {sh sh' : Shared P} {pc pc' : Pc P} (h : Act T sh pc sh' pc')
    (good : ∀ i q, sh.cache i = some q → T.built (T.length q) q)
    (inj : ∀ i j n, Has T sh.cache i n → Has T sh.cache j n → i = j) (holds : Holds T pc) (knows : Knows T sh pc) :
    (∀ i q, sh'.cache i = some q → T.built (T.length q) q) ∧
      (∀ i j n, Has T sh'.cache i n → Has T sh'.cache j n → i = j) ∧ Holds T pc' ∧ Knows T sh' pc' := by
  cases h with
  | call n => exact ⟨good, inj, trivial, trivial⟩
  | acquire ph n hl =>
    refine ⟨good, inj, ?_, ?_⟩
    · cases ph <;> exact holds
    · exact ⟨by omega, fun j hj => by omega⟩
  | skip ph n i hi hs =>
    refine ⟨good, inj, ?_, ?_⟩
    · cases ph <;> exact holds
    · refine ⟨by omega, fun j hj => ?_⟩
      by_cases e : j.val < i
      · exact knows.2 j e
      · rintro ⟨q, h1, h2⟩
        have : j = ⟨i, hi⟩ := Fin.ext (by simp only; omega)
        subst this
        exact hs q h1 h2
  | found ph n i hi q h1 h2 => exact ⟨good, inj, trivial, q, h1, h2⟩
  | miss1 n i hi => exact ⟨good, inj, trivial, fun j => knows.2 j (by omega)⟩
  | miss2 p n i hi =>
    refine ⟨good, inj, holds, by norm_num, fun j => knows.2 j (by omega), fun j hj => ?_⟩
    have : j = 0 := Fin.ext (by simp only [Fin.val_zero]; omega)
    rw [this]
  | fresh n i he => exact ⟨good, inj, trivial, knows⟩
  | stale n i he => exact ⟨good, inj, trivial, knows⟩
  | bump n i => exact ⟨good, inj, trivial, knows⟩
  | mark n i => exact ⟨good, inj, trivial, knows⟩
  | guard n i => exact ⟨good, inj, trivial, knows⟩
  | ret n i p hp =>
    obtain ⟨q, h1, h2⟩ := knows
    obtain rfl : q = p := by rw [h1] at hp; exact Option.some.inj hp
    exact ⟨good, inj, h2 ▸ good i q h1, trivial⟩
  | unlock n p => exact ⟨good, inj, holds, trivial⟩
  | unlockMiss n => exact ⟨good, inj, trivial, trivial⟩
  | build n p hn hp => exact ⟨good, inj, hp, trivial⟩
  | throw => exact ⟨good, inj, trivial, trivial⟩
  | less n p i l hi hl =>
    refine ⟨good, inj, holds, by omega, knows.2.1, fun j hj => ?_⟩
    by_cases e : j.val < i
    · exact hl.le.trans (knows.2.2 j e)
    · have : j = ⟨i, hi⟩ := Fin.ext (by simp only; omega)
      rw [this]
  | notLess n p i l hi hl =>
    refine ⟨good, inj, holds, by omega, knows.2.1, fun j hj => ?_⟩
    by_cases e : j.val < i
    · exact knows.2.2 j e
    · have : j = ⟨i, hi⟩ := Fin.ext (by simp only; omega)
      rw [this]; omega
  | lruEnd n p i l hi => exact ⟨good, inj, holds, knows.2.1, fun j => knows.2.2 j (by omega)⟩
  | put n p l =>
    have hl : T.length p = n := hb n p holds
    refine ⟨fun i q hq => ?_, fun i j m hi hj => ?_, holds, trivial⟩
    · by_cases e : i = l
      · subst e
        simp only [Function.update_self] at hq
        obtain rfl := Option.some.inj hq
        rw [hl]; exact holds
      · simp only [Function.update_of_ne e] at hq
        exact good i q hq
    · obtain ⟨q, h1, h2⟩ := hi
      obtain ⟨r, h3, h4⟩ := hj
      simp only [Function.update_apply] at h1 h3
      by_cases ei : i = l
      · by_cases ej : j = l
        · rw [ei, ej]
        · rw [if_pos ei] at h1
          rw [if_neg ej] at h3
          obtain rfl := Option.some.inj h1
          exact absurd ⟨r, h3, by omega⟩ (knows.1 j)
      · by_cases ej : j = l
        · rw [if_neg ei] at h1
          rw [if_pos ej] at h3
          obtain rfl := Option.some.inj h3
          exact absurd ⟨q, h1, by omega⟩ (knows.1 i)
        · rw [if_neg ei] at h1
          rw [if_neg ej] at h3
          exact inj i j m ⟨q, h1, h2⟩ ⟨r, h3, h4⟩
  | bump2 n p l => exact ⟨good, inj, holds, trivial⟩
  | mark2 n p l => exact ⟨good, inj, holds, trivial⟩
  | leave n p => exact ⟨good, inj, trivial, trivial⟩
  | leaveFailed n => exact ⟨good, inj, trivial, trivial⟩

theorem inv_start : Inv T (start : State ι P) where
  crit_locked t h := h.elim
  mutex t u h := h.elim
  locked_crit h := by simp [start] at h
  good i q h := by simp [start] at h
  inj i j n h := by obtain ⟨q, h, -⟩ := h; simp [start] at h
  holds t := trivial
  knows t := trivial

theorem inv_step (hb : ∀ n p, T.built n p → T.length p = n) {s s' : State ι P} {t : ι} (hs : Step T s t s') (I : Inv T s) :
    Inv T s' := by
  obtain ⟨ha, hu⟩ := hs
  obtain ⟨g1, g2, g3, g4⟩ := act_local hb ha I.good I.inj (I.holds t) (I.knows t)
  have hold : ∀ u, Holds T (s'.pc u) := fun u => by
    by_cases e : u = t
    · rw [e]; exact g3
    · rw [hu u e]; exact I.holds u
  by_cases hc : Crit (s.pc t)
  · have others : ∀ u, u ≠ t → ¬ Crit (s'.pc u) := fun u e h => by
      rw [hu u e] at h
      exact e (I.mutex u t h hc)
    refine ⟨fun u h => ?_, fun u v h1 h2 => ?_, fun h => ?_, g1, g2, hold, fun u => ?_⟩
    · by_cases e : u = t
      · subst e
        rcases act_inside ha hc with ⟨h1, -⟩ | ⟨-, h1⟩
        · rw [h1]; exact I.crit_locked u hc
        · exact absurd h h1
      · exact absurd h (others u e)
    · by_contra hne
      by_cases e : u = t
      · exact others v (fun h => hne (by rw [e, h])) h2
      · exact others u e h1
    · rcases act_inside ha hc with ⟨-, h1⟩ | ⟨h1, -⟩
      · exact ⟨t, h1⟩
      · rw [h1] at h; cases h
    · by_cases e : u = t
      · rw [e]; exact g4
      · exact knows_out (sh' := s'.sh) (others u e)
  · rcases act_outside ha hc with ⟨e1, n1⟩ | ⟨l1, e1, c1⟩
    · have crit : ∀ u, Crit (s'.pc u) → u ≠ t ∧ Crit (s.pc u) := fun u h => by
        by_cases e : u = t
        · rw [e] at h; exact absurd h n1
        · exact ⟨e, hu u e ▸ h⟩
      refine ⟨fun u h => ?_, fun u v h1 h2 => ?_, fun h => ?_, g1, g2, hold, fun u => ?_⟩
      · rw [e1]; exact I.crit_locked u (crit u h).2
      · exact I.mutex u v (crit u h1).2 (crit v h2).2
      · rw [e1] at h
        obtain ⟨u, hcu⟩ := I.locked_crit h
        have : u ≠ t := fun e => hc (e ▸ hcu)
        exact ⟨u, by rw [hu u this]; exact hcu⟩
      · by_cases e : u = t
        · rw [e]; exact g4
        · rw [hu u e, e1]; exact I.knows u
    · have nocrit : ∀ u, ¬ Crit (s.pc u) := fun u h => by
        have := I.crit_locked u h
        rw [l1] at this; cases this
      have crit : ∀ u, Crit (s'.pc u) → u = t := fun u h => by
        by_contra e
        rw [hu u e] at h
        exact nocrit u h
      refine ⟨fun u h => by rw [e1], fun u v h1 h2 => by rw [crit u h1, crit v h2], fun _ => ⟨t, c1⟩, g1, g2, hold, fun u => ?_⟩
      by_cases e : u = t
      · rw [e]; exact g4
      · exact knows_out (sh' := s'.sh) (fun h => e (crit u h))

theorem inv_reach (hb : ∀ n p, T.built n p → T.length p = n) {s : State ι P} (h : Reach T s) : Inv T s := by
  induction h with
  | init => exact inv_start
  | step _ hs ih => exact inv_step hb hs ih

end Verif.PlanCache
