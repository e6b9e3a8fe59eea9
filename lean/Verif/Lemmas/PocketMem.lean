import Verif.Model.PocketFFT
import Mathlib.Algebra.BigOperators.Intervals

/-! # Buffers of the FFT model as functions of the index -/

set_option linter.unusedSimpArgs false
set_option linter.unusedSectionVars false
set_option linter.unusedVariables false

namespace Verif.Pocket
open Complex

variable {α : Type}

/-- The buffer with `N` elements `A 0, A 1, ...` -/
def tab (N : ℕ) (A : ℕ → α) : List α := (List.range N).map A

@[simp] theorem tab_length (N : ℕ) (A : ℕ → α) : (tab N A).length = N := by simp [tab]

@[simp] theorem tab_get (N : ℕ) (A : ℕ → α) (n : ℕ) (h : n < (tab N A).length) :
    (tab N A)[n] = A n := by simp [tab]

theorem tab_get? (N : ℕ) (A : ℕ → α) (n : ℕ) : (tab N A)[n]? = if n < N then some (A n) else none := by
  by_cases h : n < N
  · simp [tab, h]
  · simp [tab, h]

theorem tab_congr {N : ℕ} {A B : ℕ → α} (h : ∀ n, n < N → A n = B n) : tab N A = tab N B := by
  apply List.map_congr_left
  intro n hn
  exact h n (List.mem_range.mp hn)

theorem eq_tab {N : ℕ} {A : ℕ → α} {l : List α} (hl : l.length = N)
    (h : ∀ n, n < N → l[n]? = some (A n)) : l = tab N A := by
  apply List.ext_getElem?
  intro n
  rw [tab_get?]
  by_cases hn : n < N
  · rw [if_pos hn, h n hn]
  · rw [if_neg hn]; simp; omega

theorem exists_tab [Inhabited α] (l : List α) : ∃ A : ℕ → α, l = tab l.length A :=
  ⟨fun n => l[n]?.getD default, eq_tab rfl (by intro n hn; simp [hn])⟩

theorem ld_tab {N : ℕ} {A : ℕ → α} {n : ℕ} (h : n < N) : ld (tab N A) n = .ok (A n) := by
  simp [ld, tab_get?, h]

theorem st_tab {N : ℕ} {A : ℕ → α} {n : ℕ} {v : α} (h : n < N) :
    st (tab N A) n v = .ok (tab N (Function.update A n v)) := by
  unfold st
  rw [if_pos (by simpa using h)]
  congr 1
  apply eq_tab
  · simp
  · intro m hm
    rw [List.getElem?_set]
    by_cases e : n = m
    · subst e; simp [hm]
    · simp [e, tab_get?, hm, Function.update_of_ne (Ne.symm e)]

theorem mapM_tab {β : Type} {N : ℕ} {f : ℕ → Out β} {g : ℕ → β}
    (h : ∀ n, n < N → f n = .ok (g n)) : (List.range N).mapM f = .ok (tab N g) := by
  have key : ∀ (l : List ℕ), (∀ n ∈ l, n < N) → l.mapM f = .ok (l.map g) := by
    intro l
    induction l with
    | nil => intro _; rfl
    | cons a l ih =>
      intro hl
      rw [List.mapM_cons, h a (hl a (by simp)), ih (fun n hn => hl n (by simp [hn]))]
      rfl
  exact key _ (fun n hn => List.mem_range.mp hn)

theorem forN_tab {N : ℕ} {body : ℕ → List α → Out (List α)} (F : ℕ → ℕ → α) (n : ℕ)
    (h : ∀ k, k < n → body k (tab N (F k)) = .ok (tab N (F (k + 1)))) :
    forN n body (tab N (F 0)) = .ok (tab N (F n)) := by
  induction n with
  | zero => rfl
  | succ n ih =>
    rw [forN, ih (fun k hk => h k (by omega))]
    exact h n (by omega)

/-! ### filling a buffer with given values, in any order -/

/-- `ch` has `L` elements and holds `V` wherever `S` says so. -/
def Filled (L : ℕ) (V : ℕ → α) (S : ℕ → Prop) (ch : List α) : Prop :=
  ch.length = L ∧ ∀ n, n < L → S n → ch[n]? = some (V n)

/-- `f` stores the right value at every index of `T` and nothing wrong anywhere. -/
def Fills (L : ℕ) (V : ℕ → α) (f : List α → Out (List α)) (T : ℕ → Prop) : Prop :=
  ∀ (S : ℕ → Prop) (ch : List α), Filled L V S ch →
    ∃ ch', f ch = .ok ch' ∧ Filled L V (fun n => S n ∨ T n) ch'

variable {L : ℕ} {V : ℕ → α}

theorem Filled.mono {S T : ℕ → Prop} {ch : List α} (h : Filled L V S ch)
    (hT : ∀ n, n < L → T n → S n) : Filled L V T ch :=
  ⟨h.1, fun n hn hT' => h.2 n hn (hT n hn hT')⟩

theorem Fills.mono {f : List α → Out (List α)} {S T : ℕ → Prop} (h : Fills L V f S)
    (hT : ∀ n, n < L → T n → S n) : Fills L V f T := by
  intro U ch hc
  obtain ⟨ch', h1, h2⟩ := h U ch hc
  exact ⟨ch', h1, h2.mono (fun n hn => Or.imp_right (hT n hn))⟩

theorem filled_st {S : ℕ → Prop} {ch : List α} {a : ℕ} {v : α} (h : Filled L V S ch) (ha : a < L)
    (hv : v = V a) : ∃ ch', st ch a v = .ok ch' ∧ Filled L V (fun n => S n ∨ n = a) ch' := by
  refine ⟨ch.set a v, ?_, ?_, ?_⟩
  · simp [st, h.1, ha]
  · simp [h.1]
  · intro n hn hS
    rw [List.getElem?_set]
    by_cases e : a = n
    · subst e; simp [h.1, hn, hv]
    · rw [if_neg e]
      rcases hS with hS | hS
      · exact h.2 n hn hS
      · exact absurd hS.symm e

theorem fills_st {a : ℕ} {v : α} (ha : a < L) (hv : v = V a) :
    Fills L V (fun ch => st ch a v) (fun n => n = a) :=
  fun _ _ hc => filled_st hc ha hv

theorem fills_st_bind {a : ℕ} {v : α} {g : List α → Out (List α)} {T : ℕ → Prop} (ha : a < L)
    (hv : v = V a) (hg : Fills L V g T) :
    Fills L V (fun ch => st ch a v >>= g) (fun n => n = a ∨ T n) := by
  intro S ch hc
  obtain ⟨c1, h1, h2⟩ := filled_st hc ha hv
  obtain ⟨c2, h3, h4⟩ := hg _ c1 h2
  refine ⟨c2, by simp only [h1, Out.ok_bind, h3], h4.mono ?_⟩
  intro n _ h
  rcases h with h | h | h
  · exact Or.inl (Or.inl h)
  · exact Or.inl (Or.inr h)
  · exact Or.inr h

theorem fills_bind {f g : List α → Out (List α)} {T U : ℕ → Prop} (hf : Fills L V f T)
    (hg : Fills L V g U) : Fills L V (fun ch => f ch >>= g) (fun n => T n ∨ U n) := by
  intro S ch hc
  obtain ⟨c1, h1, h2⟩ := hf S ch hc
  obtain ⟨c2, h3, h4⟩ := hg _ c1 h2
  refine ⟨c2, by simp only [h1, Out.ok_bind, h3], h4.mono ?_⟩
  intro n _ h
  rcases h with h | h | h
  · exact Or.inl (Or.inl h)
  · exact Or.inl (Or.inr h)
  · exact Or.inr h

theorem fills_forN {m : ℕ} {f : ℕ → List α → Out (List α)} {T : ℕ → ℕ → Prop}
    (hf : ∀ k, k < m → Fills L V (f k) (T k)) :
    Fills L V (forN m f) (fun n => ∃ k, k < m ∧ T k n) := by
  intro S ch hc
  have key := forN_inv (body := f) (fun k s => Filled L V (fun n => S n ∨ ∃ k', k' < k ∧ T k' n) s) m ch
    (hc.mono (by rintro n _ (h | ⟨k, hk, _⟩); exact h; omega))
  replace key := key (by
    intro k s hk hs
    obtain ⟨s', h1, h2⟩ := hf k hk _ s hs
    refine ⟨s', h1, h2.mono ?_⟩
    rintro n _ (h | ⟨k', hk', h⟩)
    · exact Or.inl (Or.inl h)
    · by_cases e : k' = k
      · subst e; exact Or.inr h
      · exact Or.inl (Or.inr ⟨k', by omega, h⟩))
  exact key

theorem fills_all {f : List α → Out (List α)} {T : ℕ → Prop} (hf : Fills L V f T)
    (hT : ∀ n, n < L → T n) {ch : List α} (hc : ch.length = L) : f ch = .ok (tab L V) := by
  obtain ⟨c', h1, h2⟩ := hf (fun _ => False) ch ⟨hc, fun _ _ h => h.elim⟩
  rw [h1, eq_tab h2.1 (fun n hn => h2.2 n hn (Or.inr (hT n hn)))]

/-! ### replacing the values of a buffer in place -/

open Classical in
/-- The buffer that holds `V` where `S` says so and `B` everywhere else. -/
noncomputable def mix (L : ℕ) (B V : ℕ → α) (S : ℕ → Prop) : List α :=
  tab L (fun n => if S n then V n else B n)

/-- `f` replaces `B` by `V` at the indices of `T`, whatever else has been replaced before. -/
def Maps (L : ℕ) (B V : ℕ → α) (f : List α → Out (List α)) (T : ℕ → Prop) : Prop :=
  ∀ S : ℕ → Prop, (∀ n, n < L → T n → ¬ S n) → f (mix L B V S) = .ok (mix L B V (fun n => S n ∨ T n))

variable {B : ℕ → α}

theorem mix_congr {S T : ℕ → Prop} (h : ∀ n, n < L → (S n ↔ T n)) : mix L B V S = mix L B V T := by
  unfold mix
  apply tab_congr
  intro n hn
  by_cases e : S n
  · rw [if_pos e, if_pos ((h n hn).mp e)]
  · rw [if_neg e, if_neg (fun e' => e ((h n hn).mpr e'))]

theorem Maps.congr {f : List α → Out (List α)} {S T : ℕ → Prop} (h : Maps L B V f S)
    (hT : ∀ n, n < L → (T n ↔ S n)) : Maps L B V f T := by
  intro U hU
  rw [h U (fun n hn hs => hU n hn ((hT n hn).mpr hs))]
  congr 1
  apply mix_congr
  intro n hn
  rw [hT n hn]

theorem ld_mix_old {S : ℕ → Prop} {n : ℕ} (hn : n < L) (h : ¬ S n) : ld (mix L B V S) n = .ok (B n) := by
  unfold mix
  rw [ld_tab hn, if_neg h]

theorem ld_mix_new {S : ℕ → Prop} {n : ℕ} (hn : n < L) (h : S n) : ld (mix L B V S) n = .ok (V n) := by
  unfold mix
  rw [ld_tab hn, if_pos h]

theorem st_mix {S : ℕ → Prop} {a : ℕ} {v : α} (ha : a < L) (hv : v = V a) :
    st (mix L B V S) a v = .ok (mix L B V (fun n => S n ∨ n = a)) := by
  unfold mix
  rw [st_tab ha]
  congr 1
  apply tab_congr
  intro n hn
  by_cases e : n = a
  · subst e; simp [hv]
  · rw [Function.update_of_ne e]
    by_cases e' : S n <;> simp [e, e']

theorem maps_bind {f g : List α → Out (List α)} {T U : ℕ → Prop} (hf : Maps L B V f T)
    (hg : Maps L B V g U) (hd : ∀ n, n < L → T n → ¬ U n) :
    Maps L B V (fun ch => f ch >>= g) (fun n => T n ∨ U n) := by
  intro S hS
  simp only []
  rw [hf S (fun n hn h => hS n hn (Or.inl h)), Out.ok_bind, hg]
  · congr 1
    apply mix_congr
    intro n _
    tauto
  · rintro n hn hu (h | h)
    · exact hS n hn (Or.inr hu) h
    · exact hd n hn h hu

theorem maps_forN {m : ℕ} {f : ℕ → List α → Out (List α)} {T : ℕ → ℕ → Prop}
    (hf : ∀ k, k < m → Maps L B V (f k) (T k))
    (hd : ∀ k k' n, k < m → k' < m → n < L → T k n → T k' n → k = k') :
    Maps L B V (forN m f) (fun n => ∃ k, k < m ∧ T k n) := by
  induction m with
  | zero =>
    intro S hS
    rw [forN]
    congr 1
    apply mix_congr
    intro n _
    simp
  | succ m ih =>
    intro S hS
    have h1 := ih (fun k hk => hf k (by omega)) (fun k k' n hk hk' => hd k k' n (by omega) (by omega))
    rw [forN, h1 S (fun n hn ⟨k, hk, h⟩ => hS n hn ⟨k, by omega, h⟩), Out.ok_bind, hf m (by omega)]
    · congr 1
      apply mix_congr
      intro n _
      constructor
      · rintro ((h | ⟨k, hk, h⟩) | h)
        · exact Or.inl h
        · exact Or.inr ⟨k, by omega, h⟩
        · exact Or.inr ⟨m, by omega, h⟩
      · rintro (h | ⟨k, hk, h⟩)
        · exact Or.inl (Or.inl h)
        · by_cases e : k = m
          · subst e; exact Or.inr h
          · exact Or.inl (Or.inr ⟨k, by omega, h⟩)
    · rintro n hn hT (h | ⟨k, hk, h⟩)
      · exact hS n hn ⟨m, by omega, hT⟩ h
      · have := hd k m n (by omega) (by omega) hn h hT
        omega

theorem maps_all {f : List α → Out (List α)} {T : ℕ → Prop} (hf : Maps L B V f T) :
    f (tab L B) = .ok (mix L B V T) := by
  have := hf (fun _ => False) (fun _ _ _ h => h)
  have e : mix L B V (fun _ => False) = tab L B := by unfold mix; apply tab_congr; intro n _; simp
  rw [e] at this
  rw [this]
  congr 1
  apply mix_congr
  intro n _
  simp

/-- An operation known on every buffer fills its target. -/
theorem fills_of_mix [Inhabited α] {f : List α → Out (List α)} {T : ℕ → Prop}
    (h : ∀ B : ℕ → α, f (tab L B) = .ok (mix L B V T)) : Fills L V f T := by
  intro S ch hc
  obtain ⟨B, hB⟩ := exists_tab ch
  rw [hc.1] at hB
  refine ⟨_, by rw [hB]; exact h B, by simp [mix], ?_⟩
  intro n hn hS
  unfold mix
  rw [tab_get?, if_pos hn]
  by_cases e : T n
  · rw [if_pos e]
  · rw [if_neg e]
    have := hc.2 n hn (hS.resolve_right e)
    rw [hB, tab_get?, if_pos hn] at this
    exact this

/-! ### index arithmetic -/

theorem ix_lt {ido dim l1 a b c : ℕ} (ha : a < ido) (hb : b < dim) (hc : c < l1) :
    ix ido dim a b c < ido * dim * l1 := by
  unfold ix
  have h1 : b + dim * c < dim * l1 := by
    have : dim * c + dim ≤ dim * l1 := by
      rw [← Nat.mul_succ]; exact Nat.mul_le_mul_left _ hc
    omega
  have h2 : ido * (b + dim * c) + ido ≤ ido * (dim * l1) := by
    rw [← Nat.mul_succ]; exact Nat.mul_le_mul_left _ h1
  rw [Nat.mul_assoc]
  omega

theorem ix_mod {ido dim a b c : ℕ} (ha : a < ido) : ix ido dim a b c % ido = a := by
  unfold ix
  rw [Nat.add_mul_mod_self_left, Nat.mod_eq_of_lt ha]

theorem ix_div {ido dim a b c : ℕ} (ha : a < ido) : ix ido dim a b c / ido = b + dim * c := by
  unfold ix
  rw [Nat.add_mul_div_left _ _ (by omega), Nat.div_eq_of_lt ha, Nat.zero_add]

theorem ix_eq {ido dim n : ℕ} : ix ido dim (n % ido) (n / ido % dim) (n / ido / dim) = n := by
  unfold ix
  rw [Nat.mod_add_div, Nat.mod_add_div]

theorem ix_cases {ido dim l1 n : ℕ} (h : n < ido * dim * l1) :
    n % ido < ido ∧ n / ido % dim < dim ∧ n / ido / dim < l1 := by
  have h0 : 0 < ido := by
    rcases Nat.eq_zero_or_pos ido with e | e
    · subst e; simp at h
    · exact e
  have h1 : 0 < dim := by
    rcases Nat.eq_zero_or_pos dim with e | e
    · subst e; simp at h
    · exact e
  refine ⟨Nat.mod_lt _ h0, Nat.mod_lt _ h1, ?_⟩
  rw [Nat.div_div_eq_div_mul]
  exact Nat.div_lt_of_lt_mul h

theorem ix_inj {ido dim a b c a' b' c' : ℕ} (ha : a < ido) (hb : b < dim) (ha' : a' < ido) (hb' : b' < dim)
    (h : ix ido dim a b c = ix ido dim a' b' c') : a = a' ∧ b = b' ∧ c = c' := by
  have h1 : a = a' := by rw [← ix_mod (b := b) (c := c) (dim := dim) ha, h, ix_mod ha']
  have h2 : b + dim * c = b' + dim * c' := by rw [← ix_div (a := a) ha, h, ix_div ha']
  have h3 : b = b' := by
    have := congrArg (· % dim) h2
    simpa [Nat.add_mul_mod_self_left, Nat.mod_eq_of_lt hb, Nat.mod_eq_of_lt hb'] using this
  refine ⟨h1, h3, ?_⟩
  subst h3
  have : dim * c = dim * c' := by omega
  exact Nat.eq_of_mul_eq_mul_left (by omega) this

theorem wx_lt {ido ip x i : ℕ} (h0 : 0 < i) (hi : i < ido) (hx : x < ip) :
    wx ido x i < ip * (ido - 1) := by
  unfold wx
  have : x * (ido - 1) + (ido - 1) ≤ ip * (ido - 1) := by
    rw [← Nat.succ_mul]; exact Nat.mul_le_mul_right _ hx
  omega

end Verif.Pocket
