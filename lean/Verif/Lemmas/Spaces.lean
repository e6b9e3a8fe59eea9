import Verif.Model.Spaces
import Verif.Spec.Spaces
import Verif.Props.Signal

namespace Verif
set_option linter.unusedSimpArgs false

theorem Writes.congr {K : Type} {mem m : List K} {out : Span} {g g' : ℕ → K} (h : Writes mem m out g)
    (he : ∀ i, i < out.size → g i = g' i) : Writes mem m out g' :=
  ⟨h.length, fun i hi => by rw [h.written i hi, he i hi], h.rest⟩

theorem Writes.within {K : Type} {mem m : List K} {out : Span} {g : ℕ → K} (h : Writes mem m out g)
    (hw : out.Within mem) : out.Within m := by
  have := h.length
  unfold Span.Within at *
  omega

/-- the elements of the signal are the values written -/
theorem Writes.contents {K : Type} {mem m : List K} {out : Span} {g : ℕ → K} (h : Writes mem m out g) (hw : out.Within mem) :
    (m.drop out.pos).take out.size = (List.range out.size).map g := by
  have hl := h.length
  unfold Span.Within at hw
  apply List.ext_getElem?
  intro i
  rw [List.getElem?_take]
  by_cases hi : i < out.size
  · rw [if_pos hi, List.getElem?_drop, h.written i hi]
    simp [hi]
  · rw [if_neg hi, List.getElem?_eq_none (by simp; omega)]

/-- a whole signal -/
theorem Writes.whole {K : Type} {mem m : List K} {n : ℕ} {g : ℕ → K} (h : Writes mem m ⟨0, n⟩ g) (hn : mem.length = n) :
    m = (List.range n).map g := by
  have := h.contents (by simp [Span.Within, hn])
  simp only [List.drop_zero] at this
  rwa [List.take_of_length_le (by rw [h.length, hn])] at this

theorem compoundVS_writes {K : Type} [Add K] [Sub K] [Mul K] [Div K] [Zero K] {mem m : List K} {out : Span} {g : ℕ → K}
    (e : Exec) (op : ArithOp) (b : K) (hw : out.Within mem) (h : Writes mem m out g) :
    ∃ m', compoundVS e.asserts e.vec e.W op m out b = .ok m' ∧ Writes mem m' out (fun i => op.apply (g i) b) := by
  have hw' := h.within hw
  obtain ⟨m', e1, hl, h1, h2⟩ := C40_vector_scalar e.asserts e.vec e.W op m out out b rfl hw' hw' (Or.inl le_rfl)
  refine ⟨m', e1, hl.trans h.length, fun i hi => ?_, fun j hj => (h2 j hj).trans (h.rest j hj)⟩
  rw [h1 i hi, h.written i hi]
  rfl

theorem arithVV_self_writes {K : Type} [Add K] [Sub K] [Mul K] [Div K] [Zero K] {mem m : List K} {out : Span} {g : ℕ → K}
    (e : Exec) (op : ArithOp) (hw : out.Within mem) (h : Writes mem m out g) :
    ∃ m', arithVV e.asserts e.vec e.W op m out out out = .ok m' ∧ Writes mem m' out (fun i => op.apply (g i) (g i)) := by
  have hw' := h.within hw
  obtain ⟨m', e1, hl, h1, h2⟩ := C40_vector_vector e.asserts e.vec e.W op m out out out rfl rfl hw' hw' hw' (Or.inl le_rfl)
    (Or.inl le_rfl)
  exact ⟨m', e1, hl.trans h.length, fun i hi => h1 i _ _ hi (h.written i hi) (h.written i hi),
    fun j hj => (h2 j hj).trans (h.rest j hj)⟩

theorem functionInto_writes {K : Type} {mem m : List K} {out : Span} {g : ℕ → K}
    (e : Exec) (f : K → K) (hw : out.Within mem) (h : Writes mem m out g) :
    ∃ m', functionInto e f m out out = .ok m' ∧ Writes mem m' out (fun i => f (g i)) := by
  have hw' := h.within hw
  obtain ⟨m', e1, hl, h1, h2⟩ := C08_transform_unary e.vec e.W f m out.pos out.size out.pos hw' hw' (Or.inl le_rfl)
  refine ⟨m', e1, hl.trans h.length, fun i hi => ?_, fun j hj => (h2 j hj).trans (h.rest j hj)⟩
  rw [h1 i hi, h.written i hi]
  rfl

theorem forEach_writes {K : Type} {mem m : List K} {out : Span} {g g' : ℕ → K} (f : K → Out K) (hw : out.Within mem)
    (h : Writes mem m out g) (hf : ∀ i, i < out.size → f (g i) = .ok (g' i)) :
    ∃ m', forEach f m out = .ok m' ∧ Writes mem m' out g' := by
  have hw' := h.within hw
  have key := forN_inv
    (body := fun i mem => do
      let k ← rd mem ((out.pos + i : Nat) : Int)
      let v ← f k
      wr mem ((out.pos + i : Nat) : Int) v)
    (fun n (x : List K) => x.length = m.length ∧ ∀ j, x[j]? =
      if out.pos ≤ j ∧ j < out.pos + n then some (g' (j - out.pos)) else m[j]?) out.size m
    ⟨rfl, fun j => by rw [if_neg (by omega)]⟩
  replace key := key (by
    intro i x hi ⟨hxl, hx⟩
    unfold Span.Within at hw'
    have hb : out.pos + i < x.length := by omega
    have hr : rd x ((out.pos + i : ℕ) : ℤ) = .ok (g i) := by
      apply rd_some
      rw [hx, if_neg (by omega), h.written i hi]
    obtain ⟨x', ew, hl', hw''⟩ : ∃ x', wr x ((out.pos + i : ℕ) : ℤ) (g' i) = .ok x' ∧ x'.length = x.length ∧
        ∀ j, x'[j]? = if j = out.pos + i then some (g' i) else x[j]? := by
      refine ⟨x.set (out.pos + i) (g' i), ?_, by simp, fun j => ?_⟩
      · rw [wr_eq (by omega) (by omega), Int.toNat_natCast]
      · rw [List.getElem?_set]
        by_cases hj : j = out.pos + i
        · subst hj
          simp [hb]
        · rw [if_neg (Ne.symm hj), if_neg hj]
    refine ⟨x', ?_, hl'.trans hxl, fun j => ?_⟩
    · show (rd x _ >>= fun k => f k >>= fun v => wr x _ v) = _
      rw [hr, Out.ok_bind, hf i hi, Out.ok_bind, ew]
    · rw [hw'', hx]
      by_cases hj : j = out.pos + i
      · subst hj
        rw [if_pos rfl, if_pos (by omega), Nat.add_sub_cancel_left]
      · rw [if_neg hj]
        by_cases h1 : out.pos ≤ j ∧ j < out.pos + i
        · rw [if_pos h1, if_pos (by omega)]
        · rw [if_neg h1, if_neg (by omega)])
  obtain ⟨m', e1, hl, hi'⟩ := key
  · refine ⟨m', e1, hl.trans h.length, fun i hi => ?_, fun j hj => ?_⟩
    · rw [hi', if_pos (by omega), Nat.add_sub_cancel_left]
    · rw [hi', if_neg (by omega)]
      exact h.rest j hj

theorem fill_writes {K : Type} (mem : List K) (out : Span) (g : ℕ → K) (hw : out.Within mem) :
    ∃ m', forN out.size (fun i mem => wr mem ((out.pos + i : Nat) : Int) (g i)) mem = .ok m' ∧ Writes mem m' out g := by
  unfold Span.Within at hw
  have key := forN_inv
    (body := fun i mem => wr mem ((out.pos + i : Nat) : Int) (g i))
    (fun n (x : List K) => x.length = mem.length ∧ ∀ j, x[j]? =
      if out.pos ≤ j ∧ j < out.pos + n then some (g (j - out.pos)) else mem[j]?) out.size mem
    ⟨rfl, fun j => by rw [if_neg (by omega)]⟩
  replace key := key (by
    intro i x hi ⟨hxl, hx⟩
    have hb : out.pos + i < x.length := by omega
    refine ⟨x.set (out.pos + i) (g i), by rw [wr_eq (by omega) (by omega), Int.toNat_natCast], by simpa using hxl, fun j => ?_⟩
    rw [List.getElem?_set]
    by_cases hj : j = out.pos + i
    · subst hj
      rw [if_pos rfl, if_pos hb, if_pos (by omega), Nat.add_sub_cancel_left]
    · rw [if_neg (Ne.symm hj), hx]
      by_cases h1 : out.pos ≤ j ∧ j < out.pos + i
      · rw [if_pos h1, if_pos (by omega)]
      · rw [if_neg h1, if_neg (by omega)])
  obtain ⟨m', e1, hl, hi'⟩ := key
  · refine ⟨m', e1, hl, fun i hi => ?_, fun j hj => ?_⟩
    · rw [hi', if_pos (by omega), Nat.add_sub_cancel_left]
    · rw [hi', if_neg (by omega)]

/-- the divisor of LinSpace -/
def linDivisor (n : ℕ) (inclusive : Bool) : ℕ := max 1 (if inclusive then n - 1 else n)

theorem linSpace_writes (e : Exec) {mem m : List ℝ} {out : Span} {g : ℕ → ℝ} (hw : out.Within mem) (h : Writes mem m out g)
    (start stop : ℝ) (inclusive : Bool) :
    ∃ m', linSpace e m out start stop inclusive = .ok m' ∧
      Writes mem m' out (fun i => start + i * ((stop - start) / linDivisor out.size inclusive)) := by
  have hw' := h.within hw
  obtain ⟨m1, e1, h1⟩ := fill_writes m out (fun i => (i : ℝ)) hw'
  obtain ⟨m2, e2, h2⟩ := compoundVS_writes e .mul ((stop - start) / linDivisor out.size inclusive) hw' h1
  obtain ⟨m3, e3, h3⟩ := compoundVS_writes e .add start hw' h2
  have hd : ((max 1 ((out.size : ℤ) - (if inclusive then 1 else 0)) : ℤ) : ℝ) = (linDivisor out.size inclusive : ℝ) := by
    have : max 1 ((out.size : ℤ) - (if inclusive then 1 else 0)) = (linDivisor out.size inclusive : ℤ) := by
      unfold linDivisor
      cases inclusive <;> simp <;> omega
    rw [this]
    simp
  have hpos : (0 : ℝ) < linDivisor out.size inclusive := by
    have : 0 < linDivisor out.size inclusive := by unfold linDivisor; omega
    exact_mod_cast this
  refine ⟨m3, ?_, ⟨h3.length.trans h.length, fun i hi => ?_, fun j hj => (h3.rest j hj).trans (h.rest j hj)⟩⟩
  · unfold linSpace
    simp only []
    rw [e1, Out.ok_bind, hd, fdiv_ok hpos.ne', Out.ok_bind, e2, Out.ok_bind, e3]
  · rw [h3.written i hi]
    simp only [ArithOp.apply]
    congr 1
    ring

end Verif
