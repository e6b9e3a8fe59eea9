import Verif.Spec.Ownership
import Mathlib.Tactic.Common
import Mathlib.Tactic.SimpRw

/-! # Heap invariants for Props/Ownership.lean -/

set_option linter.all false

namespace Verif
namespace Own

variable {α : Type}

/-- Which blocks are allocated, and by whom they are owned. -/
structure WF (h : Heap α) (own : ℕ → Option ℕ) : Prop where
  fresh : ∀ b, h.next ≤ b → h.blocks b = none
  live : ∀ i b, own i = some b → h.blocks b ≠ none
  inj : ∀ i j b, own i = some b → own j = some b → i = j
  noleak : ∀ b, h.blocks b ≠ none → ∃ i, own i = some b

/-- `h'` agrees with `h` on what is owned by `own`. -/
def Same (h h' : Heap α) (o : Option ℕ) : Prop := ∀ b, o = some b → h'.blocks b = h.blocks b

theorem Same.contents {h h' : Heap α} {o : Option ℕ} (hs : Same h h' o) : h'.contents o = h.contents o := by
  cases o with
  | none => rfl
  | some b => simp only [Heap.contents, hs b rfl]

theorem contents_ok {h : Heap α} {own : ℕ → Option ℕ} (w : WF h own) (i : ℕ) : ∃ l, h.contents (own i) = .ok l := by
  cases ho : own i with
  | none => exact ⟨[], rfl⟩
  | some b =>
    obtain ⟨l, hl⟩ := Option.ne_none_iff_exists'.mp (w.live i b ho)
    exact ⟨l, by simp only [Heap.contents, hl]⟩

theorem vecNew_spec {h : Heap α} {own : ℕ → Option ℕ} (w : WF h own) {i : ℕ} (hi : own i = none) (l : List α) :
    WF (vecNew h l).2 (Function.update own i (vecNew h l).1) ∧ (vecNew h l).2.contents (vecNew h l).1 = .ok l ∧
    ∀ j, Same h (vecNew h l).2 (own j) := by
  unfold vecNew
  split_ifs with hl
  · refine ⟨?_, by simp [Heap.contents, hl], fun j b _ => rfl⟩
    have : Function.update own i none = own := by
      rw [← hi, Function.update_eq_self]
    simpa only [this] using w
  · have hf := w.fresh h.next (Nat.le_refl _)
    refine ⟨⟨?_, ?_, ?_, ?_⟩, by simp [Heap.contents, Heap.alloc], ?_⟩
    · intro b hb
      simp only [Heap.alloc] at hb ⊢
      rw [Function.update_of_ne (by omega)]
      exact w.fresh b (by omega)
    · intro k b hk
      simp only [Heap.alloc] at hk ⊢
      by_cases hb : b = h.next
      · simp [hb]
      · rw [Function.update_of_ne hb]
        by_cases hki : k = i
        · subst hki; simp at hk; omega
        · rw [Function.update_of_ne hki] at hk
          exact w.live k b hk
    · intro k j b hk hj
      simp only [Heap.alloc] at hk hj
      have key : ∀ k, k ≠ i → own k ≠ some h.next := fun k _ hc => w.live k _ hc hf
      by_cases hki : k = i <;> by_cases hji : j = i
      · rw [hki, hji]
      · subst hki
        rw [Function.update_of_ne hji] at hj
        simp at hk
        subst hk
        exact absurd hj (key j hji)
      · subst hji
        rw [Function.update_of_ne hki] at hk
        simp at hj
        subst hj
        exact absurd hk (key k hki)
      · rw [Function.update_of_ne hki] at hk
        rw [Function.update_of_ne hji] at hj
        exact w.inj k j b hk hj
    · intro b hb
      simp only [Heap.alloc] at hb ⊢
      by_cases hbn : b = h.next
      · exact ⟨i, by simp [hbn]⟩
      · rw [Function.update_of_ne hbn] at hb
        obtain ⟨k, hk⟩ := w.noleak b hb
        refine ⟨k, ?_⟩
        rw [Function.update_of_ne]
        · exact hk
        · rintro rfl
          rw [hi] at hk
          cases hk
    · intro j b hj
      simp only [Heap.alloc]
      rw [Function.update_of_ne]
      rintro rfl
      exact w.live j _ hj hf

theorem vecFree_spec {h : Heap α} {own : ℕ → Option ℕ} (w : WF h own) (i : ℕ) :
    ∃ h', vecFree h (own i) = .ok h' ∧ WF h' (Function.update own i none) ∧ ∀ j, j ≠ i → Same h h' (own j) := by
  cases ho : own i with
  | none =>
    refine ⟨h, rfl, ?_, fun j _ b _ => rfl⟩
    rw [← ho, Function.update_eq_self]
    exact w
  | some b =>
    obtain ⟨l, hl⟩ := Option.ne_none_iff_exists'.mp (w.live i b ho)
    refine ⟨⟨Function.update h.blocks b none, h.next⟩, by simp [vecFree, Heap.free, hl], ⟨?_, ?_, ?_, ?_⟩, ?_⟩
    · intro c hc
      change Function.update h.blocks b none c = none
      by_cases hcb : c = b
      · simp [hcb]
      · rw [Function.update_of_ne hcb]; exact w.fresh c hc
    · intro k c hk
      change Function.update h.blocks b none c ≠ none
      by_cases hki : k = i
      · subst hki; simp at hk
      · rw [Function.update_of_ne hki] at hk
        rw [Function.update_of_ne]
        · exact w.live k c hk
        · rintro rfl
          exact hki (w.inj k i _ hk ho)
    · intro k j c hk hj
      by_cases hki : k = i
      · subst hki; simp at hk
      · by_cases hji : j = i
        · subst hji; simp at hj
        · rw [Function.update_of_ne hki] at hk
          rw [Function.update_of_ne hji] at hj
          exact w.inj k j c hk hj
    · intro c hc
      change Function.update h.blocks b none c ≠ none at hc
      by_cases hcb : c = b
      · subst hcb; simp at hc
      · rw [Function.update_of_ne hcb] at hc
        obtain ⟨k, hk⟩ := w.noleak c hc
        refine ⟨k, ?_⟩
        rw [Function.update_of_ne]
        · exact hk
        · rintro rfl
          rw [ho] at hk
          exact hcb (Option.some.inj hk).symm
    · intro j hji c hc
      change Function.update h.blocks b none c = h.blocks c
      rw [Function.update_of_ne]
      rintro rfl
      exact hji (w.inj j i _ hc ho)

/-- Changing the elements of an owned block. -/
theorem store_spec {h : Heap α} {own : ℕ → Option ℕ} (w : WF h own) {i b : ℕ} (ho : own i = some b) (l : List α) :
    WF ⟨Function.update h.blocks b (some l), h.next⟩ own ∧
    (⟨Function.update h.blocks b (some l), h.next⟩ : Heap α).contents (own i) = .ok l ∧
    ∀ j, j ≠ i → Same h ⟨Function.update h.blocks b (some l), h.next⟩ (own j) := by
  have hb := w.live i b ho
  refine ⟨⟨?_, ?_, w.inj, ?_⟩, by simp [Heap.contents, ho], ?_⟩
  · intro c hc
    change Function.update h.blocks b (some l) c = none
    rw [Function.update_of_ne]
    · exact w.fresh c hc
    · rintro rfl
      exact hb (w.fresh _ hc)
  · intro k c hk
    change Function.update h.blocks b (some l) c ≠ none
    by_cases hcb : c = b
    · simp [hcb]
    · rw [Function.update_of_ne hcb]; exact w.live k c hk
  · intro c hc
    change Function.update h.blocks b (some l) c ≠ none at hc
    by_cases hcb : c = b
    · exact ⟨i, by rw [hcb, ho]⟩
    · rw [Function.update_of_ne hcb] at hc; exact w.noleak c hc
  · intro j hji c hc
    change Function.update h.blocks b (some l) c = h.blocks c
    rw [Function.update_of_ne]
    rintro rfl
    exact hji (w.inj j i _ hc ho)

theorem vecAssign_spec {h : Heap α} {own : ℕ → Option ℕ} (w : WF h own) (i : ℕ) (r : Bool) (l : List α) :
    ∃ b h', vecAssign h r (own i) l = .ok (b, h') ∧ WF h' (Function.update own i b) ∧ h'.contents b = .ok l ∧
    ∀ j, j ≠ i → Same h h' (own j) := by
  have gen : ∃ b h', (do let h ← vecFree h (own i); pure (vecNew h l) : Out (Option ℕ × Heap α)) = .ok (b, h') ∧
      WF h' (Function.update own i b) ∧ h'.contents b = .ok l ∧ ∀ j, j ≠ i → Same h h' (own j) := by
    obtain ⟨h1, e1, w1, s1⟩ := vecFree_spec w i
    obtain ⟨w2, c2, s2⟩ := vecNew_spec w1 (i := i) (by simp) l
    refine ⟨(vecNew h1 l).1, (vecNew h1 l).2, by rw [e1]; rfl, ?_, c2, ?_⟩
    · simpa only [Function.update_idem] using w2
    · intro j hji c hc
      have := s2 j c (by rw [Function.update_of_ne hji]; exact hc)
      rw [this]
      exact s1 j hji c hc
  cases ho : own i with
  | none => rw [ho] at gen; simpa [vecAssign] using gen
  | some b =>
    cases r with
    | false => rw [ho] at gen; simpa [vecAssign] using gen
    | true =>
      obtain ⟨l0, hl0⟩ := Option.ne_none_iff_exists'.mp (w.live i b ho)
      obtain ⟨w1, c1, s1⟩ := store_spec w ho l
      refine ⟨some b, _, by simp [vecAssign, hl0], ?_, ?_, s1⟩
      · rw [← ho, Function.update_eq_self]; exact w1
      · rw [← ho]; exact c1

/-- Moving a block from one owner to another. -/
theorem handover {h : Heap α} {own : ℕ → Option ℕ} (w : WF h own) {i j : ℕ} (hij : i ≠ j) (hi : own i = none) :
    WF h (Function.update (Function.update own i (own j)) j none) := by
  have val : ∀ k, Function.update (Function.update own i (own j)) j none k =
      if k = j then none else if k = i then own j else own k := by
    intro k
    simp only [Function.update_apply]
  refine ⟨w.fresh, ?_, ?_, ?_⟩
  · intro k b hk
    rw [val] at hk
    split_ifs at hk
    · exact w.live _ _ hk
    · exact w.live _ _ hk
  · intro k m b hk hm
    rw [val] at hk hm
    split_ifs at hk hm with h1 h2 h3 h4 h5 h6
    · omega
    · exact absurd (w.inj _ _ _ hm hk) h3
    · exact absurd (w.inj _ _ _ hk hm) h1
    · exact w.inj _ _ _ hk hm
  · intro b hb
    obtain ⟨k, hk⟩ := w.noleak b hb
    by_cases hkj : k = j
    · refine ⟨i, ?_⟩
      rw [val, if_neg hij, if_pos rfl, ← hkj, hk]
    · refine ⟨k, ?_⟩
      rw [val, if_neg hkj, if_neg, hk]
      rintro rfl
      rw [hi] at hk
      cases hk

theorem asView_ok {h : Heap α} {o : Option ℕ} {l : List α} (hc : h.contents o = .ok l) :
    ∃ v, asView h o = .ok v ∧ h.read v = .ok l := by
  cases o with
  | none =>
    simp only [Heap.contents, Out.ok.injEq] at hc
    subst hc
    exact ⟨none, rfl, rfl⟩
  | some b =>
    cases hb : h.blocks b with
    | none => simp [Heap.contents, hb] at hc
    | some l' =>
      simp only [Heap.contents, hb, Out.ok.injEq] at hc
      subst hc
      by_cases hl : l'.length = 0
      · exact ⟨none, by simp only [asView, Heap.contents, hb, Out.ok_bind, mkView, hl, if_true], by rw [List.length_eq_zero_iff.mp hl]; rfl⟩
      · exact ⟨some ⟨b, 0, l'.length⟩, by simp only [asView, Heap.contents, hb, Out.ok_bind, mkView, hl, if_false], by simp [Heap.read, hb]⟩

theorem mkView_ok {h : Heap α} {o : Option ℕ} {l₁ l₂ l₃ : List α} (hc : h.contents o = .ok (l₁ ++ (l₂ ++ l₃))) :
    ∃ v, mkView o l₁.length l₂.length = .ok v ∧ h.read v = .ok l₂ ∧ viewSize v = l₂.length ∧
      (∀ w, v = some w → o = some w.block ∧ w.off = l₁.length ∧ w.len = l₂.length) := by
  by_cases hl : l₂.length = 0
  · exact ⟨none, by simp [mkView, hl], by rw [List.length_eq_zero_iff.mp hl]; rfl, by simp [viewSize, hl], by simp⟩
  cases o with
  | none =>
    simp only [Heap.contents, Out.ok.injEq] at hc
    have := congrArg List.length hc
    simp at this
    omega
  | some b =>
    cases hb : h.blocks b with
    | none => simp [Heap.contents, hb] at hc
    | some l' =>
      simp only [Heap.contents, hb, Out.ok.injEq] at hc
      subst hc
      refine ⟨some ⟨b, l₁.length, l₂.length⟩, by simp [mkView, hl], ?_, rfl, ?_⟩
      · simp [Heap.read, hb]
      · rintro w ⟨⟩
        exact ⟨rfl, rfl, rfl⟩

/-- Writing through a view of a part of an owned block. -/
theorem write_spec {h : Heap α} {own : ℕ → Option ℕ} (w : WF h own) {i : ℕ} {l₁ l₂ l₃ : List α}
    (hc : h.contents (own i) = .ok (l₁ ++ (l₂ ++ l₃))) {v : Option PView} (hv : mkView (own i) l₁.length l₂.length = .ok v)
    {k : ℕ} (hk : k < l₂.length) (x : α) :
    ∃ h', h.write v k x = .ok h' ∧ WF h' own ∧ h'.contents (own i) = .ok (l₁ ++ (l₂.set k x ++ l₃)) ∧ ∀ j, j ≠ i → Same h h' (own j) := by
  have hl : ¬ l₂.length = 0 := by omega
  cases ho : own i with
  | none =>
    rw [ho] at hv
    simp [mkView, hl] at hv
  | some b =>
    rw [ho] at hv hc
    simp only [mkView, hl, if_false, Out.ok.injEq] at hv
    subst hv
    cases hb : h.blocks b with
    | none => simp [Heap.contents, hb] at hc
    | some l' =>
      simp only [Heap.contents, hb, Out.ok.injEq] at hc
      subst hc
      obtain ⟨w1, c1, s1⟩ := store_spec w ho ((l₁ ++ (l₂ ++ l₃)).set (l₁.length + k) x)
      have hset : (l₁ ++ (l₂ ++ l₃)).set (l₁.length + k) x = l₁ ++ (l₂.set k x ++ l₃) := by
        rw [List.set_append_right _ _ (by omega), List.set_append_left _ _ (by omega)]
        simp
      refine ⟨_, ?_, w1, ?_, s1⟩
      · simp only [Heap.write, hb]
        rw [if_neg (by omega), if_pos (by simp; omega)]
      · rw [ho] at c1
        rw [c1, hset]

theorem foldlM_snoc {m : Type → Type} [Monad m] [LawfulMonad m] {β γ : Type} (f : γ → β → m γ) (a : γ) (l : List β) (b : β) :
    (l ++ [b]).foldlM f a = (l.foldlM f a) >>= fun s => f s b := by
  rw [List.foldlM_append]
  simp

end Own
end Verif
