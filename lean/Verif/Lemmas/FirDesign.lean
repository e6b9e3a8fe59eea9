import Verif.Model.FirDesign
import Verif.Spec.FirDesign
import Verif.Lemmas.Spaces
import Verif.Props.Windowing

namespace Verif
set_option linter.unusedSimpArgs false
open Complex

theorem wr_upd {K : Type} {mem : List K} {p : ℕ} (hp : p < mem.length) (v : K) :
    ∃ m', wr mem (p : ℤ) v = .ok m' ∧ m'.length = mem.length ∧ ∀ j, m'[j]? = if j = p then some v else mem[j]? := by
  refine ⟨mem.set p v, by rw [wr_eq (by omega) (by omega), Int.toNat_natCast], by simp, fun j => ?_⟩
  rw [List.getElem?_set]
  by_cases hj : j = p
  · subst hj
    rw [if_pos rfl, if_pos hp, if_pos rfl]
  · rw [if_neg (Ne.symm hj), if_neg hj]

theorem Writes.reads {K : Type} {mem m : List K} {out : Span} {g : ℕ → K} (h : Writes mem m out g) : Reads m out g := h.written

theorem Reads.congr {K : Type} {mem : List K} {s : Span} {h h' : ℕ → K} (hr : Reads mem s h) (he : ∀ i, i < s.size → h i = h' i) :
    Reads mem s h' := fun i hi => by rw [hr i hi, he i hi]

/-- the result may be written over the argument, or be separate from it -/
def Span.Compatible (out inp : Span) : Prop := out = inp ∨ out.pos + out.size ≤ inp.pos ∨ inp.pos + inp.size ≤ out.pos

theorem mirrorResponse_writes (mem : List ℝ) (mir fil : Span) (hs : mir.size = fil.size) (hm : mir.Within mem)
    (hf : fil.Within mem) (hc : mir.Compatible fil) (h : ℕ → ℝ) (hr : Reads mem fil h) :
    ∃ m, mirrorResponse mem mir fil = .ok m ∧ Writes mem m mir (fun i => (-1) ^ i * h i) := by
  unfold Span.Within at *
  have key := forN_inv
    (body := fun i (s : List ℝ × ℝ) => do
      let x ← rd s.1 ((fil.pos + i : Nat) : Int)
      let m ← wr s.1 ((mir.pos + i : Nat) : Int) (s.2 * x)
      pure (m, s.2 * (-1)))
    (fun n (s : List ℝ × ℝ) => s.1.length = mem.length ∧ s.2 = (-1) ^ n ∧ ∀ j, s.1[j]? =
      if mir.pos ≤ j ∧ j < mir.pos + n then some ((-1) ^ (j - mir.pos) * h (j - mir.pos)) else mem[j]?) fil.size (mem, 1)
    ⟨rfl, by simp, fun j => by rw [if_neg (by omega)]⟩
  replace key := key (by
    intro i s hi ⟨hl, hsgn, hx⟩
    have hrd : rd s.1 ((fil.pos + i : ℕ) : ℤ) = .ok (h i) := by
      apply rd_some
      rw [hx, if_neg ?_, hr i hi]
      rcases hc with rfl | hc | hc <;> omega
    obtain ⟨m', ew, hl', hw'⟩ := wr_upd (mem := s.1) (p := mir.pos + i) (by omega) (s.2 * h i)
    refine ⟨(m', s.2 * (-1)), ?_, hl'.trans hl, by rw [hsgn]; ring, fun j => ?_⟩
    · show (rd s.1 _ >>= fun x => wr s.1 _ (s.2 * x) >>= fun m => pure (m, s.2 * (-1))) = _
      rw [hrd, Out.ok_bind, ew, Out.ok_bind]
      rfl
    · show m'[j]? = _
      rw [hw', hx]
      by_cases hj : j = mir.pos + i
      · subst hj
        rw [if_pos rfl, if_pos (by omega), Nat.add_sub_cancel_left, hsgn]
      · rw [if_neg hj]
        by_cases h1 : mir.pos ≤ j ∧ j < mir.pos + i
        · rw [if_pos h1, if_pos (by omega)]
        · rw [if_neg h1, if_neg (by omega)])
  obtain ⟨s, e1, hl, -, hi⟩ := key
  refine ⟨s.1, ?_, hl, fun i hi' => ?_, fun j hj => ?_⟩
  · unfold mirrorResponse
    rw [cassert_true hs, Out.ok_bind, e1, Out.ok_bind]
    rfl
  · rw [hi, if_pos (by omega), Nat.add_sub_cancel_left]
  · rw [hi, if_neg (by omega)]

theorem complementaryResponse_writes (e : Exec) (mem : List ℝ) (com fil : Span) (hodd : fil.size % 2 = 1) (hs : com.size = fil.size)
    (hm : com.Within mem) (hf : fil.Within mem) (hc : com.pos ≤ fil.pos ∨ fil.pos + fil.size ≤ com.pos) (h : ℕ → ℝ) (hr : Reads mem fil h) :
    ∃ m, complementaryResponse e mem com fil = .ok m ∧
      Writes mem m com (fun i => (if i = fil.size / 2 then 1 else 0) - h i) := by
  obtain ⟨m1, e1, hl, h1, h2⟩ := C40_vector_scalar e.asserts e.vec e.W .mul mem com fil (-1) hs hm hf hc
  unfold Span.Within at *
  have hmid : m1[com.pos + com.size / 2]? = some (h (com.size / 2) * (-1)) := by
    rw [h1 _ (by omega), hr _ (by omega)]
    rfl
  obtain ⟨m2, e2, hl2, h3⟩ := wr_upd (mem := m1) (p := com.pos + com.size / 2) (by omega) (h (com.size / 2) * (-1) + 1)
  refine ⟨m2, ?_, by omega, fun i hi => ?_, fun j hj => ?_⟩
  · unfold complementaryResponse
    rw [cassert_true hodd, Out.ok_bind, e1, Out.ok_bind, rd_some hmid, Out.ok_bind, e2]
  · rw [h3]
    by_cases hj : i = com.size / 2
    · subst hj
      rw [if_pos rfl, if_pos (by omega)]
      congr 1
      ring
    · rw [if_neg (by omega), if_neg (by omega), h1 i hi, hr i (by omega)]
      simp only [ArithOp.apply, Option.map_some]
      congr 1
      ring
  · rw [h3, if_neg (by omega), h2 j hj]

/-- the factor ShiftResponse applies to tap `t` of `n` -/
noncomputable def shiftFactor (n : ℕ) (f : ℝ) (t : ℕ) : ℝ :=
  2 * Real.cos (((min t (n - 1 - t) : ℕ) - ((n / 2 : ℕ) : ℝ)) * (Real.pi * f))

theorem shiftFactor_odd {n t : ℕ} (hn : n % 2 = 1) (ht : t < n) (f : ℝ) :
    shiftFactor n f t = 2 * Real.cos (Real.pi * f * (t - ((n / 2 : ℕ) : ℝ))) := by
  unfold shiftFactor
  rcases Nat.lt_or_ge t (n / 2 + 1) with h | h
  · rw [min_eq_left (by omega)]
    congr 2
    ring
  · rw [min_eq_right (by omega)]
    have : ((n - 1 - t : ℕ) : ℝ) = 2 * ((n / 2 : ℕ) : ℝ) - t := by
      have h' : n - 1 - t + t = 2 * (n / 2) := by omega
      have := congrArg (fun x : ℕ => (x : ℝ)) h'
      push_cast at this
      push_cast
      linarith
    rw [this, ← Real.cos_neg]
    congr 2
    ring

theorem shiftResponse_writes (e : Exec) (mem : List ℝ) (mov fil : Span) (hs : mov.size = fil.size)
    (hm : mov.Within mem) (hf : fil.Within mem) (hc : mov.Compatible fil) (h : ℕ → ℝ) (hr : Reads mem fil h) (f : ℝ)
    (old : ℝ) (ho : fil.size % 2 = 1 → mem[mov.pos + fil.size / 2]? = some old) :
    ∃ m, shiftResponse e mem mov fil f = .ok m ∧
      Writes mem m mov (fun t => if fil.size % 2 = 1 ∧ t = fil.size / 2 then 2 * old else shiftFactor fil.size f t * h t) := by
  have hm0 := hm
  unfold Span.Within at hm hf
  obtain ⟨n, hn⟩ : ∃ n, n = fil.size := ⟨_, rfl⟩
  rw [← hn] at hs hf ho ⊢
  have key := forN_inv
    (body := fun i mem => do
      let x := ((i : ℝ) - ((n / 2 : ℕ) : ℝ)) * (Real.pi * f)
      let c := Real.cos x
      let a ← rd mem ((fil.pos + i : Nat) : Int)
      let mem ← wr mem ((mov.pos + i : Nat) : Int) (c * a)
      let b ← rd mem ((fil.pos + (n - i - 1) : Nat) : Int)
      wr mem ((mov.pos + (n - i - 1) : Nat) : Int) (c * b))
    (fun k (m : List ℝ) => m.length = mem.length ∧ ∀ j, m[j]? =
      if mov.pos ≤ j ∧ j < mov.pos + n ∧ (j < mov.pos + k ∨ mov.pos + n - k ≤ j)
      then some (shiftFactor n f (j - mov.pos) / 2 * h (j - mov.pos)) else mem[j]?) (n / 2) mem
    ⟨rfl, fun j => by rw [if_neg (by omega)]⟩
  replace key := key (by
    intro i m hi ⟨hl, hx⟩
    have hr1 : rd m ((fil.pos + i : ℕ) : ℤ) = .ok (h i) := by
      apply rd_some
      rw [hx, if_neg ?_, hr i (by omega)]
      rcases hc with rfl | hc | hc <;> omega
    obtain ⟨m1, ew, hl', hw'⟩ := wr_upd (mem := m) (p := mov.pos + i) (by omega)
      (Real.cos (((i : ℝ) - ((n / 2 : ℕ) : ℝ)) * (Real.pi * f)) * h i)
    have hr2 : rd m1 ((fil.pos + (n - i - 1) : ℕ) : ℤ) = .ok (h (n - i - 1)) := by
      apply rd_some
      rw [hw', if_neg ?_, hx, if_neg ?_, hr _ (by omega)]
      · rcases hc with rfl | hc | hc <;> omega
      · rcases hc with rfl | hc | hc <;> omega
    obtain ⟨m2, ew2, hl2, hw2⟩ := wr_upd (mem := m1) (p := mov.pos + (n - i - 1)) (by omega)
      (Real.cos (((i : ℝ) - ((n / 2 : ℕ) : ℝ)) * (Real.pi * f)) * h (n - i - 1))
    refine ⟨m2, ?_, by omega, fun j => ?_⟩
    · simp only []
      rw [hr1, Out.ok_bind, ew, Out.ok_bind, hr2, Out.ok_bind, ew2]
    · rw [hw2, hw', hx]
      by_cases hj2 : j = mov.pos + (n - i - 1)
      · subst hj2
        rw [if_pos rfl, if_pos (by omega), Nat.add_sub_cancel_left, shiftFactor, min_eq_right (by omega),
          show n - 1 - (n - i - 1) = i by omega]
        congr 1
        ring
      · rw [if_neg hj2]
        by_cases hj : j = mov.pos + i
        · subst hj
          rw [if_pos rfl, if_pos (by omega), Nat.add_sub_cancel_left, shiftFactor, min_eq_left (by omega)]
          congr 1
          ring
        · rw [if_neg hj]
          by_cases h1 : mov.pos ≤ j ∧ j < mov.pos + n ∧ (j < mov.pos + i ∨ mov.pos + n - i ≤ j)
          · rw [if_pos h1, if_pos (by omega)]
          · rw [if_neg h1, if_neg (by omega)])
  obtain ⟨m1, e1, hl, hx⟩ := key
  have hW : Writes mem m1 mov (fun t => if n % 2 = 1 ∧ t = n / 2 then old else shiftFactor n f t / 2 * h t) := by
    refine ⟨hl, fun t ht => ?_, fun j hj => ?_⟩
    · rw [hx]
      by_cases hmid : n % 2 = 1 ∧ t = n / 2
      · rw [if_neg (by omega), if_pos hmid, hmid.2]
        exact ho hmid.1
      · rw [if_pos (by omega), if_neg hmid, Nat.add_sub_cancel_left]
    · rw [hx, if_neg (by omega)]
  obtain ⟨m2, e2, h2⟩ := compoundVS_writes e .mul 2 hm0 hW
  refine ⟨m2, ?_, h2.congr fun t ht => ?_⟩
  · unfold shiftResponse
    simp only [← hn]
    rw [cassert_true hs, Out.ok_bind, e1, Out.ok_bind, e2]
  · simp only [ArithOp.apply]
    split_ifs with h
    · ring
    · ring

end Verif
