import Verif.Lemmas.PlanCache
import Mathlib.Data.Finset.Card
import Mathlib.Data.Fintype.Card
import Mathlib.Data.Finset.Image

/-!
# The cache of plans is a least-recently-used cache
-/

set_option linter.unusedVariables false
set_option linter.unusedSimpArgs false
set_option linter.unusedTactic false
set_option linter.unreachableTactic false

namespace Verif.PlanCache

/-- The lengths in the slots, the time stamps and the history of uses, most recent first. -/
structure Lru (c : Fin nmax → Option ℕ) (last : Fin nmax → ℕ) (counter : ℕ) (log : List ℕ) : Prop where
  le : ∀ i, last i ≤ counter
  empty : ∀ i, c i = none ↔ last i = 0
  inj : ∀ i j, last i = last j → last i ≠ 0 → i = j
  uniq : ∀ i j n, c i = some n → c j = some n → i = j
  cached : ∀ i n, c i = some n → ∃ a b, log = a ++ n :: b ∧ n ∉ a ∧ ∀ m, m ∈ a ↔ ∃ j, c j = some m ∧ last i < last j
  evicted : ∀ n ∈ log, (∀ i, c i ≠ some n) → ∃ a b, log = a ++ n :: b ∧ n ∉ a ∧ nmax ≤ a.toFinset.card

theorem lru_start : Lru (fun _ => none) (fun _ => 0) 0 [] where
  le _ := le_rfl
  empty _ := by simp
  inj i j _ h := absurd rfl h
  uniq i j n h := by cases h
  cached i n h := by cases h
  evicted n h := by cases h

variable {c : Fin nmax → Option ℕ} {last : Fin nmax → ℕ} {counter : ℕ} {log : List ℕ}

theorem evicted_cons {n m : ℕ} (hm : m ≠ n) (h : ∃ a b, log = a ++ m :: b ∧ m ∉ a ∧ nmax ≤ a.toFinset.card) :
    ∃ a b, n :: log = a ++ m :: b ∧ m ∉ a ∧ nmax ≤ a.toFinset.card := by
  obtain ⟨a, b, h1, h2, h3⟩ := h
  refine ⟨n :: a, b, by rw [h1]; rfl, ?_, h3.trans ?_⟩
  · simp [hm, h2]
  · apply Finset.card_le_card
    intro x hx
    simp only [List.mem_toFinset, List.mem_cons] at hx ⊢
    exact Or.inr hx

/-- slot `i` is used, and has the most recent time stamp already -/
theorem lru_again (L : Lru c last counter log) {i : Fin nmax} {n : ℕ} (hi : c i = some n) (h : last i = counter) :
    Lru c last counter (n :: log) where
  le := L.le
  empty := L.empty
  inj := L.inj
  uniq := L.uniq
  cached := by
    intro j m hj
    have hi0 : last i ≠ 0 := fun e => by rw [(L.empty i).2 e] at hi; cases hi
    by_cases e : m = n
    · subst e
      obtain rfl := L.uniq j i m hj hi
      refine ⟨[], log, rfl, by simp, fun x => ?_⟩
      simp only [List.not_mem_nil, false_iff, not_exists, not_and, not_lt]
      intro k _
      rw [h]; exact L.le k
    · obtain ⟨a, b, h1, h2, h3⟩ := L.cached j m hj
      refine ⟨n :: a, b, by rw [h1]; rfl, by simp [e, h2], fun x => ?_⟩
      rw [List.mem_cons, h3]
      constructor
      · rintro (rfl | hx)
        · refine ⟨i, hi, lt_of_le_of_ne (by rw [h]; exact L.le j) fun e2 => ?_⟩
          have := L.inj i j e2.symm hi0
          subst this
          rw [hi] at hj
          exact e (Option.some.inj hj).symm
        · exact hx
      · exact Or.inr
  evicted := by
    intro m hm hc
    rcases List.mem_cons.1 hm with rfl | hm
    · exact absurd hi (hc i)
    · exact evicted_cons (fun e => hc i (e ▸ hi)) (L.evicted m hm hc)

/-- slot `i` is used -/
theorem lru_touch (L : Lru c last counter log) {i : Fin nmax} {n : ℕ} (hi : c i = some n) :
    Lru c (Function.update last i (counter + 1)) (counter + 1) (n :: log) where
  le j := by
    rw [Function.update_apply]; split
    · exact le_rfl
    · exact (L.le j).trans (Nat.le_succ _)
  empty j := by
    rw [Function.update_apply]; split
    · rename_i e
      rw [e, hi]; simp
    · exact L.empty j
  inj j k h h0 := by
    rw [Function.update_apply] at h h0
    rw [Function.update_apply] at h
    by_cases e : j = i
    · by_cases e' : k = i
      · rw [e, e']
      · rw [if_pos e, if_neg e'] at h
        have := L.le k; omega
    · by_cases e' : k = i
      · rw [if_neg e, if_pos e'] at h
        have := L.le j; omega
      · rw [if_neg e, if_neg e'] at h
        rw [if_neg e] at h0
        exact L.inj j k h h0
  uniq := L.uniq
  cached := by
    intro j m hj
    by_cases e : m = n
    · subst e
      obtain rfl := L.uniq j i m hj hi
      refine ⟨[], log, rfl, by simp, fun x => ?_⟩
      simp only [List.not_mem_nil, false_iff, not_exists, not_and, not_lt, Function.update_self]
      intro k _
      rw [Function.update_apply]; split
      · exact le_rfl
      · exact (L.le k).trans (Nat.le_succ _)
    · have hji : j ≠ i := fun e2 => by
        rw [e2, hi] at hj; exact e (Option.some.inj hj).symm
      obtain ⟨a, b, h1, h2, h3⟩ := L.cached j m hj
      refine ⟨n :: a, b, by rw [h1]; rfl, by simp [e, h2], fun x => ?_⟩
      rw [List.mem_cons, h3, Function.update_of_ne hji]
      constructor
      · rintro (rfl | ⟨k, hx, hk⟩)
        · exact ⟨i, hi, by rw [Function.update_self]; have := L.le j; omega⟩
        · refine ⟨k, hx, ?_⟩
          rw [Function.update_apply]; split
          · have := L.le j; omega
          · exact hk
      · rintro ⟨k, hx, hk⟩
        by_cases ek : k = i
        · left
          rw [ek, hi] at hx; exact (Option.some.inj hx).symm
        · rw [Function.update_of_ne ek] at hk
          exact Or.inr ⟨k, hx, hk⟩
  evicted := by
    intro m hm hc
    rcases List.mem_cons.1 hm with rfl | hm
    · exact absurd hi (hc i)
    · exact evicted_cons (fun e => hc i (e ▸ hi)) (L.evicted m hm hc)

/-- a new length replaces the one with the oldest time stamp -/
theorem lru_insert (L : Lru c last counter log) {l : Fin nmax} {n : ℕ} (hn : ∀ j, c j ≠ some n)
    (hl : ∀ j, last l ≤ last j) :
    Lru (Function.update c l (some n)) (Function.update last l (counter + 1)) (counter + 1) (n :: log) where
  le j := by
    rw [Function.update_apply]; split
    · exact le_rfl
    · exact (L.le j).trans (Nat.le_succ _)
  empty j := by
    rw [Function.update_apply, Function.update_apply]; split
    · simp
    · exact L.empty j
  inj j k h h0 := by
    rw [Function.update_apply] at h h0
    rw [Function.update_apply] at h
    by_cases e : j = l
    · by_cases e' : k = l
      · rw [e, e']
      · rw [if_pos e, if_neg e'] at h
        have := L.le k; omega
    · by_cases e' : k = l
      · rw [if_neg e, if_pos e'] at h
        have := L.le j; omega
      · rw [if_neg e, if_neg e'] at h
        rw [if_neg e] at h0
        exact L.inj j k h h0
  uniq i j m h1 h2 := by
    rw [Function.update_apply] at h1 h2
    by_cases e : i = l
    · by_cases e' : j = l
      · rw [e, e']
      · rw [if_pos e] at h1
        rw [if_neg e'] at h2
        exact absurd (Option.some.inj h1 ▸ h2) (hn j)
    · by_cases e' : j = l
      · rw [if_neg e] at h1
        rw [if_pos e'] at h2
        exact absurd (Option.some.inj h2 ▸ h1) (hn i)
      · rw [if_neg e] at h1
        rw [if_neg e'] at h2
        exact L.uniq i j m h1 h2
  cached := by
    intro j m hj
    by_cases ej : j = l
    · subst ej
      rw [Function.update_self] at hj
      obtain rfl := Option.some.inj hj
      refine ⟨[], log, rfl, by simp, fun x => ?_⟩
      simp only [List.not_mem_nil, false_iff, not_exists, not_and, not_lt, Function.update_self]
      intro k _
      rw [Function.update_apply]; split
      · exact le_rfl
      · exact (L.le k).trans (Nat.le_succ _)
    · rw [Function.update_of_ne ej] at hj
      have e : m ≠ n := fun e => hn j (e ▸ hj)
      have hj0 : last j ≠ 0 := fun e => by rw [(L.empty j).2 e] at hj; cases hj
      obtain ⟨a, b, h1, h2, h3⟩ := L.cached j m hj
      refine ⟨n :: a, b, by rw [h1]; rfl, by simp [e, h2], fun x => ?_⟩
      rw [List.mem_cons, h3, Function.update_of_ne ej]
      constructor
      · rintro (rfl | ⟨k, hx, hk⟩)
        · exact ⟨l, by rw [Function.update_self], by rw [Function.update_self]; have := L.le j; omega⟩
        · have hkl : k ≠ l := fun e2 => by have := hl j; rw [e2] at hk; omega
          exact ⟨k, by rw [Function.update_of_ne hkl]; exact hx, by rw [Function.update_of_ne hkl]; exact hk⟩
      · rintro ⟨k, hx, hk⟩
        by_cases ek : k = l
        · left
          rw [ek, Function.update_self] at hx; exact (Option.some.inj hx).symm
        · rw [Function.update_of_ne ek] at hk hx
          exact Or.inr ⟨k, hx, hk⟩
  evicted := by
    intro m hm hc
    have hmn : m ≠ n := fun e => hc l (by rw [Function.update_self, e])
    rcases List.mem_cons.1 hm with e | hm
    · exact absurd e hmn
    by_cases hcm : ∃ i, c i = some m
    · obtain ⟨i, hi⟩ := hcm
      have hil : i = l := by
        by_contra e
        exact hc i (by rw [Function.update_of_ne e]; exact hi)
      subst hil
      have hi0 : last i ≠ 0 := fun e => by rw [(L.empty i).2 e] at hi; cases hi
      obtain ⟨a, b, h1, h2, h3⟩ := L.cached i m hi
      refine ⟨n :: a, b, by rw [h1]; rfl, by simp [hmn, h2], ?_⟩
      -- every other slot is full
      have full : ∀ j, ∃ v, c j = some v := fun j => by
        rcases hcj : c j with _ | v
        · have := (L.empty j).1 hcj
          have := hl j
          omega
        · exact ⟨v, rfl⟩
      choose v hv using full
      have hmem : Finset.univ.image (fun j => if j = i then n else v j) ⊆ (n :: a).toFinset := by
        intro x hx
        obtain ⟨j, -, rfl⟩ := Finset.mem_image.1 hx
        simp only [List.mem_toFinset, List.mem_cons]
        by_cases e : j = i
        · rw [if_pos e]; exact Or.inl rfl
        · rw [if_neg e]
          refine Or.inr ((h3 _).2 ⟨j, hv j, lt_of_le_of_ne (hl j) fun e2 => e (L.inj i j e2 hi0).symm⟩)
      have hinj : Function.Injective (fun j => if j = i then n else v j) := by
        intro j k hjk
        simp only [] at hjk
        by_cases e : j = i
        · by_cases e' : k = i
          · rw [e, e']
          · rw [if_pos e, if_neg e'] at hjk
            exact absurd (hjk ▸ hv k) (hn k)
        · by_cases e' : k = i
          · rw [if_neg e, if_pos e'] at hjk
            exact absurd (hjk ▸ hv j) (hn j)
          · rw [if_neg e, if_neg e'] at hjk
            exact L.uniq j k _ (hv j) (by rw [hjk]; exact hv k)
      calc nmax = (Finset.univ.image (fun j : Fin nmax => if j = i then n else v j)).card := by
            rw [Finset.card_image_of_injective _ hinj]; simp
        _ ≤ _ := Finset.card_le_card hmem
    · push Not at hcm
      exact evicted_cons hmn (L.evicted m hm hcm)

/-- the lengths in the cache are those that are more recent than all but fewer than 16 others -/
theorem lru_iff (L : Lru c last counter log) (n : ℕ) :
    (∃ i, c i = some n) ↔ ∃ a b, log = a ++ n :: b ∧ n ∉ a ∧ a.toFinset.card < nmax := by
  constructor
  · rintro ⟨i, hi⟩
    obtain ⟨a, b, h1, h2, h3⟩ := L.cached i n hi
    refine ⟨a, b, h1, h2, ?_⟩
    have : a.toFinset ⊆ (Finset.univ.erase i).image (fun j => (c j).getD 0) := by
      intro x hx
      obtain ⟨j, hj, hlt⟩ := (h3 x).1 (List.mem_toFinset.1 hx)
      refine Finset.mem_image.2 ⟨j, Finset.mem_erase.2 ⟨fun e => ?_, Finset.mem_univ _⟩, by rw [hj]; rfl⟩
      rw [e] at hlt; omega
    calc a.toFinset.card ≤ _ := Finset.card_le_card this
      _ ≤ (Finset.univ.erase i).card := Finset.card_image_le
      _ < nmax := by rw [Finset.card_erase_of_mem (Finset.mem_univ _)]; simp
  · rintro ⟨a, b, h1, h2, h3⟩
    by_contra hc
    push Not at hc
    obtain ⟨a', b', g1, g2, g3⟩ := L.evicted n (by rw [h1]; simp) hc
    have : a = a' := by
      rw [h1] at g1
      clear h3 g3 h1 hc
      induction a generalizing a' with
      | nil =>
        cases a' with
        | nil => rfl
        | cons y ys =>
          simp only [List.nil_append, List.cons_append, List.cons.injEq] at g1
          exact absurd (by rw [g1.1]; simp) g2
      | cons x xs ih =>
        cases a' with
        | nil =>
          simp only [List.nil_append, List.cons_append, List.cons.injEq] at g1
          exact absurd (by rw [g1.1]; simp) h2
        | cons y ys =>
          simp only [List.cons_append, List.cons.injEq] at g1
          rw [g1.1, ih (fun h => h2 (by simp [h])) ys g1.2 (fun h => g2 (by simp [h]))]
    subst this
    omega

/-! ### the machine -/

variable {ι P : Type} {T : PlanType P}

/-- the lengths in the slots -/
def lens (T : PlanType P) (cache : Fin nmax → Option P) (i : Fin nmax) : Option ℕ := (cache i).map T.length

theorem lens_has {cache : Fin nmax → Option P} {i : Fin nmax} {n : ℕ} : lens T cache i = some n ↔ Has T cache i n := by
  unfold lens Has
  rcases cache i with _ | q <;> simp

/-- What the time stamps are at each point of the critical section, as long as the counter has not overflown. -/
def Stamps (T : PlanType P) (sh : Shared P) : Pc P → Prop
  | .mark _ _ => sh.counter = sh.uses ∧ ∃ k, sh.counter = k + 1 ∧ Lru (lens T sh.cache) sh.lastAccess k sh.log
  | .guard n _ | .ret n _ | .unlock n _ => sh.counter = sh.uses ∧ Lru (lens T sh.cache) sh.lastAccess sh.counter (n :: sh.log)
  | .bump2 n _ l => sh.counter = sh.uses ∧ ∃ c, lens T sh.cache = Function.update c l (some n) ∧ (∀ j, c j ≠ some n) ∧
      (∀ j, sh.lastAccess l ≤ sh.lastAccess j) ∧ Lru c sh.lastAccess sh.counter sh.log
  | .mark2 n _ l => sh.counter = sh.uses ∧ ∃ k c, sh.counter = k + 1 ∧ lens T sh.cache = Function.update c l (some n) ∧
      (∀ j, c j ≠ some n) ∧ (∀ j, sh.lastAccess l ≤ sh.lastAccess j) ∧ Lru c sh.lastAccess k sh.log
  | _ => sh.counter = sh.uses ∧ Lru (lens T sh.cache) sh.lastAccess sh.counter sh.log

theorem stamps_congr {sh sh' : Shared P} {pc : Pc P} (h1 : sh'.cache = sh.cache) (h2 : sh'.lastAccess = sh.lastAccess)
    (h3 : sh'.counter = sh.counter) (h4 : sh'.log = sh.log) (h5 : sh'.uses = sh.uses) : Stamps T sh' pc ↔ Stamps T sh pc := by
  cases pc <;> simp [Stamps, h1, h2, h3, h4, h5]

theorem stamps_out {sh : Shared P} {pc : Pc P} (hc : ¬ Crit pc) :
    Stamps T sh pc ↔ (sh.counter = sh.uses ∧ Lru (lens T sh.cache) sh.lastAccess sh.counter sh.log) := by
  cases pc <;> simp_all [Stamps, Crit]

theorem uses_mono {sh sh' : Shared P} {pc pc' : Pc P} (h : Act T sh pc sh' pc') : sh.uses ≤ sh'.uses := by
  cases h <;> simp

theorem act_stamps (hb : ∀ n p, T.built n p → T.length p = n) {sh sh' : Shared P} {pc pc' : Pc P}
    (h : Act T sh pc sh' pc') (hu : sh'.uses < wrap) (holds : Holds T pc)
    (knows : Knows T sh pc) (st : Stamps T sh pc) : Stamps T sh' pc' := by
  cases h with
  | call n => exact st
  | acquire ph n hl => exact st
  | skip ph n i hi hs => exact st
  | found ph n i hi q h1 h2 => exact st
  | miss1 n i hi => exact st
  | miss2 p n i hi => exact st
  | fresh n i he => exact ⟨st.1, lru_again st.2 (lens_has.2 knows) he⟩
  | stale n i he => exact st
  | bump n i =>
    obtain ⟨s1, s2⟩ := st
    have e : (sh.counter + 1) % wrap = sh.counter + 1 := Nat.mod_eq_of_lt (by simp only [] at hu; omega)
    exact ⟨by simp only [e]; omega, sh.counter, by simp only [e], s2⟩
  | mark n i =>
    obtain ⟨s1, k, s2, s3⟩ := st
    refine ⟨s1, ?_⟩
    simp only [s2]
    exact lru_touch s3 (lens_has.2 knows)
  | guard n i =>
    obtain ⟨s1, s2⟩ := st
    refine ⟨s1, ?_⟩
    simp only []
    have h0 : sh.counter ≠ 0 := by
      intro e
      have := s2.le i
      have h1 : lens T sh.cache i = none := (s2.empty i).2 (by omega)
      rw [lens_has.2 knows] at h1
      cases h1
    rw [if_neg h0]
    exact s2
  | ret n i p hp => exact st
  | unlock n p => exact st
  | unlockMiss n => exact st
  | build n p hn hp => exact st
  | throw => exact st
  | less n p i l hi hl => exact st
  | notLess n p i l hi hl => exact st
  | lruEnd n p i l hi => exact st
  | put n p l =>
    refine ⟨st.1, lens T sh.cache, ?_, fun j hj => knows.1 j (lens_has.1 hj), knows.2, st.2⟩
    funext j
    simp only [lens, Function.update_apply]
    split
    · simp [hb n p holds]
    · rfl
  | bump2 n p l =>
    obtain ⟨s1, c, s2, s3, s4, s5⟩ := st
    have e : (sh.counter + 1) % wrap = sh.counter + 1 := Nat.mod_eq_of_lt (by simp only [] at hu; omega)
    exact ⟨by simp only [e]; omega, sh.counter, c, by simp only [e], s2, s3, s4, s5⟩
  | mark2 n p l =>
    obtain ⟨s1, k, c, s2, s3, s4, s5, s6⟩ := st
    refine ⟨s1, ?_⟩
    simp only [s2, s3]
    exact lru_insert s6 s4 s5
  | leave n p => exact st
  | leaveFailed n => exact st

/-- The time stamps are consistent: seen from the thread in the critical section, or from all. -/
def StampInv (T : PlanType P) (s : State ι P) : Prop :=
  s.sh.uses < wrap → (s.sh.locked = false → s.sh.counter = s.sh.uses ∧ Lru (lens T s.sh.cache) s.sh.lastAccess s.sh.counter s.sh.log) ∧
    ∀ t, Crit (s.pc t) → Stamps T s.sh (s.pc t)

theorem stamp_step (hb : ∀ n p, T.built n p → T.length p = n) {s s' : State ι P} {t : ι} (hs : Step T s t s') (I : Inv T s)
    (S : StampInv T s) : StampInv T s' := by
  have I' := inv_step hb hs I
  obtain ⟨ha, hu⟩ := hs
  intro hlt
  obtain ⟨S1, S2⟩ := S (lt_of_le_of_lt (uses_mono ha) hlt)
  by_cases hc : Crit (s.pc t)
  · have st' := act_stamps hb ha hlt (I.holds t) (I.knows t) (S2 t hc)
    constructor
    · intro hl
      have : ¬ Crit (s'.pc t) := fun h => by rw [I'.crit_locked t h] at hl; cases hl
      exact (stamps_out this).1 st'
    · intro u hcu
      by_cases e : u = t
      · rw [e]; exact st'
      · rw [hu u e] at hcu
        exact absurd (I.mutex u t hcu hc) e
  · rcases act_outside ha hc with ⟨e1, n1⟩ | ⟨l1, e1, c1⟩
    · rw [e1]
      refine ⟨S1, fun u hcu => ?_⟩
      have e : u ≠ t := fun e => n1 (e ▸ hcu)
      rw [hu u e] at hcu ⊢
      exact S2 u hcu
    · have st0 := (stamps_out (T := T) hc).2 (S1 l1)
      have st' := act_stamps hb ha hlt (I.holds t) (I.knows t) st0
      refine ⟨fun hl => ?_, fun u hcu => ?_⟩
      · rw [e1] at hl; simp at hl
      by_cases e : u = t
      · rw [e]; exact st'
      · rw [hu u e] at hcu
        have := I.crit_locked u hcu
        rw [l1] at this; cases this

theorem stamp_reach (hb : ∀ n p, T.built n p → T.length p = n) {s : State ι P} (h : Reach T s) : StampInv T s := by
  induction h with
  | init => exact fun _ => ⟨fun _ => ⟨rfl, lru_start⟩, fun t h => h.elim⟩
  | step hr hs ih => exact stamp_step hb hs (inv_reach hb hr) ih

end Verif.PlanCache
