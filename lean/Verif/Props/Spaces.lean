import Verif.Lemmas.Spaces
import Mathlib.Analysis.SpecialFunctions.Pow.Real

/-!
# C45: LinSpace and LogSpace.  C64: element-wise functions
-/

namespace Verif

/-- every signal has been "written" with its own contents -/
theorem Writes.refl {K : Type} [Inhabited K] (mem : List K) (out : Span) (hw : out.Within mem) :
    Writes mem mem out (fun i => (mem[out.pos + i]?).getD default) := by
  unfold Span.Within at hw
  refine ⟨rfl, fun i hi => ?_, fun _ _ => rfl⟩
  have : out.pos + i < mem.length := by omega
  simp [this]

/-- **C45** LinSpace overwrites exactly the output, with `start`, `start + step`, `start + 2 step`, …; with `inclusive` the last
element is `end`, without it the last element is one step before `end`. -/
theorem C45_linSpace (e : Exec) (mem : List ℝ) (out : Span) (hw : out.Within mem) (start stop : ℝ) (inclusive : Bool) :
    ∃ (mem' : List ℝ) (x : ℕ → ℝ) (step : ℝ), linSpace e mem out start stop inclusive = .ok mem' ∧ Writes mem mem' out x ∧
      (∀ i, i < out.size → x i = start + i * step) ∧
      (inclusive = true → 2 ≤ out.size → x (out.size - 1) = stop) ∧
      (inclusive = false → 1 ≤ out.size → x (out.size - 1) + step = stop) := by
  obtain ⟨m, e1, h1⟩ := linSpace_writes e hw (Writes.refl mem out hw) start stop inclusive
  refine ⟨m, _, (stop - start) / linDivisor out.size inclusive, e1, h1, fun i _ => rfl, ?_, ?_⟩
  · rintro rfl hn
    have : linDivisor out.size true = out.size - 1 := by unfold linDivisor; simp; omega
    have h0 : ((out.size - 1 : ℕ) : ℝ) ≠ 0 := by
      have : out.size - 1 ≠ 0 := by omega
      exact_mod_cast this
    simp only [this]
    field_simp
    ring
  · rintro rfl hn
    have : linDivisor out.size false = out.size := by unfold linDivisor; simp; omega
    have h0 : (out.size : ℝ) ≠ 0 := by
      have : out.size ≠ 0 := by omega
      exact_mod_cast this
    simp only [this]
    rw [Nat.cast_sub hn, Nat.cast_one]
    field_simp
    ring

/-- **C45** LinSpace stays between the endpoints. -/
theorem C45_linSpace_range (e : Exec) (mem : List ℝ) (out : Span) (hw : out.Within mem) (start stop : ℝ) (h : start ≤ stop)
    (inclusive : Bool) :
    ∃ (mem' : List ℝ) (x : ℕ → ℝ), linSpace e mem out start stop inclusive = .ok mem' ∧ Writes mem mem' out x ∧
      ∀ i, i < out.size → start ≤ x i ∧ x i ≤ stop ∧ (inclusive = false → start < stop → x i < stop) := by
  obtain ⟨m, e1, h1⟩ := linSpace_writes e hw (Writes.refl mem out hw) start stop inclusive
  refine ⟨m, _, e1, h1, fun i hi => ?_⟩
  have hd : 0 < linDivisor out.size inclusive := by unfold linDivisor; omega
  have hd' : (0 : ℝ) < linDivisor out.size inclusive := by exact_mod_cast hd
  have hle : (i : ℝ) ≤ linDivisor out.size inclusive := by
    have : i ≤ linDivisor out.size inclusive := by
      unfold linDivisor
      cases inclusive <;> simp <;> omega
    exact_mod_cast this
  have e2 : (i : ℝ) * ((stop - start) / linDivisor out.size inclusive) = (i : ℝ) / linDivisor out.size inclusive * (stop - start) := by
    ring
  have hq0 : 0 ≤ (i : ℝ) / linDivisor out.size inclusive := by positivity
  have hq1 : (i : ℝ) / linDivisor out.size inclusive ≤ 1 := by rw [div_le_one hd']; exact hle
  simp only [e2]
  refine ⟨?_, ?_, ?_⟩
  · have := mul_nonneg hq0 (sub_nonneg.2 h)
    linarith
  · have := mul_le_mul_of_nonneg_right hq1 (sub_nonneg.2 h)
    linarith
  · rintro rfl hlt
    have hq2 : (i : ℝ) / linDivisor out.size false < 1 := by
      rw [div_lt_one hd']
      have : i < linDivisor out.size false := by
        unfold linDivisor
        simp
        omega
      exact_mod_cast this
    have := mul_lt_mul_of_pos_right hq2 (sub_pos.2 hlt)
    linarith

/-- **C45** The allocating form returns the same values. -/
theorem C45_linSpace_new (e : Exec) (start stop : ℝ) (count : ℕ) (inclusive : Bool) :
    ∃ x : List ℝ, linSpaceNew e start stop count inclusive = .ok x ∧ x.length = count ∧
      ∀ (mem : List ℝ) (out : Span), out.Within mem → out.size = count →
        ∃ mem', linSpace e mem out start stop inclusive = .ok mem' ∧ (mem'.drop out.pos).take out.size = x := by
  have hw : (⟨0, count⟩ : Span).Within (List.replicate count (0 : ℝ)) := by simp [Span.Within]
  obtain ⟨m, e1, h1⟩ := linSpace_writes e hw (Writes.refl _ _ hw) start stop inclusive
  refine ⟨m, e1, by rw [h1.length]; simp, fun mem out hwo hc => ?_⟩
  obtain ⟨m', e2, h2⟩ := linSpace_writes e hwo (Writes.refl _ _ hwo) start stop inclusive
  refine ⟨m', e2, ?_⟩
  rw [h2.contents hwo, h1.whole (by simp), hc]

/-- **C45** LogSpace: powers of the base whose exponents are what LinSpace gives. -/
theorem C45_logSpace (e : Exec) (mem : List ℝ) (out : Span) (hw : out.Within mem) (start stop base : ℝ) (hb : 0 < base)
    (inclusive : Bool) :
    ∃ (mem' mem'' : List ℝ) (x y : ℕ → ℝ), linSpace e mem out start stop inclusive = .ok mem' ∧ Writes mem mem' out x ∧
      logSpace e mem out start stop base inclusive = .ok mem'' ∧ Writes mem mem'' out y ∧
      ∀ i, i < out.size → y i = base ^ x i := by
  obtain ⟨m, e1, h1⟩ := linSpace_writes e hw (Writes.refl mem out hw) start stop inclusive
  obtain ⟨m2, e2, h2⟩ := compoundVS_writes e .mul (Real.log base) hw h1
  obtain ⟨m3, e3, h3⟩ := functionInto_writes e Real.exp hw h2
  refine ⟨m, m3, _, _, e1, h1, ?_, h3, fun i _ => ?_⟩
  · unfold logSpace
    rw [e1, Out.ok_bind, if_pos hb, Out.ok_bind, e2, Out.ok_bind, e3]
  · simp only [ArithOp.apply]
    rw [Real.rpow_def_of_pos hb, mul_comm]

/-- **C45** A base that is not positive gives no numbers. -/
theorem C45_logSpace_bad_base (e : Exec) (mem : List ℝ) (out : Span) (hw : out.Within mem) (start stop base : ℝ)
    (hb : base ≤ 0) (inclusive : Bool) : logSpace e mem out start stop base inclusive = .ub := by
  obtain ⟨m, e1, h1⟩ := linSpace_writes e hw (Writes.refl mem out hw) start stop inclusive
  unfold logSpace
  rw [e1, Out.ok_bind, if_neg (not_lt.2 hb)]
  rfl

-- five points from 1 to 3, in the middle of a memory of eight
example (e : Exec) : ∃ mem' x, linSpace e (List.replicate 8 0) ⟨2, 5⟩ 1 3 true = .ok mem' ∧
    Writes (List.replicate 8 0) mem' ⟨2, 5⟩ x ∧ x 0 = 1 ∧ x 4 = 3 := by
  obtain ⟨m, x, s, h1, h2, h3, h4, -⟩ := C45_linSpace e (List.replicate 8 0) ⟨2, 5⟩ (by simp [Span.Within]) 1 3 true
  exact ⟨m, x, h1, h2, by simpa using h3 0 (by simp), h4 rfl (by simp)⟩

/-! ### C64 -/

variable {K : Type}

/-- **C64** `F(in)` returns a new signal of the same length holding `f` of every element; the argument is untouched. -/
theorem C64_allocating [Zero K] (e : Exec) (f : K → K) (mem : List K) (inp : Span) (hw : inp.Within mem) :
    functionNew e f mem inp = .ok (((mem.drop inp.pos).take inp.size).map f) := by
  unfold Span.Within at hw
  obtain ⟨m, e1, hl, h1, h2⟩ := C08_transform_unary e.vec e.W f (mem ++ List.replicate inp.size 0) inp.pos inp.size mem.length
    (by simp; omega) (by simp) (Or.inr hw)
  unfold functionNew functionInto
  rw [e1, Out.ok_bind, Out.pure_def]
  congr 1
  apply List.ext_getElem?
  intro i
  rw [List.getElem?_drop]
  by_cases hi : i < inp.size
  · rw [h1 i hi, List.getElem?_append_left (by omega), List.getElem?_map, List.getElem?_take, if_pos hi, List.getElem?_drop]
  · rw [List.getElem?_eq_none (by simp [hl]; omega), List.getElem?_eq_none (by simp; omega)]

/-- **C64** `F(out, in)` with equal sizes overwrites exactly `out` with `f` of the elements of `in`, also when `out` is `in`. -/
theorem C64_into (e : Exec) (f : K → K) (mem : List K) (out inp : Span) (hs : out.size = inp.size) (ho : out.Within mem)
    (hi : inp.Within mem) (hal : out.pos ≤ inp.pos ∨ inp.pos + inp.size ≤ out.pos) :
    ∃ mem', functionInto e f mem out inp = .ok mem' ∧ mem'.length = mem.length ∧
      (∀ i, i < out.size → mem'[out.pos + i]? = mem[inp.pos + i]?.map f) ∧
      (∀ j, j < out.pos ∨ out.pos + out.size ≤ j → mem'[j]? = mem[j]?) := by
  unfold Span.Within at *
  rw [hs] at *
  exact C08_transform_unary e.vec e.W f mem inp.pos inp.size out.pos hi ho hal

/-- **C64** The sizes are not compared: with an output shorter than the input, the memory behind the output is overwritten. -/
theorem C64_short_output_overruns (e : Exec) (f : K → K) (mem : List K) (out inp : Span) (hs : out.size < inp.size)
    (ho : out.pos + inp.size ≤ mem.length) (hi : inp.Within mem) (hal : out.pos ≤ inp.pos ∨ inp.pos + inp.size ≤ out.pos) :
    ∃ mem', functionInto e f mem out inp = .ok mem' ∧
      mem'[out.pos + out.size]? = mem[inp.pos + out.size]?.map f := by
  obtain ⟨m, e1, -, h1, -⟩ := C08_transform_unary e.vec e.W f mem inp.pos inp.size out.pos hi ho hal
  exact ⟨m, e1, h1 _ hs⟩

-- squares of three elements into a separate output; then into an output that is one too short: the 5 behind it is gone
example : functionInto ⟨true, true, 2⟩ (fun x : ℤ => x * x) [1, 2, 3, 0, 0, 0, 5] ⟨3, 3⟩ ⟨0, 3⟩ = .ok [1, 2, 3, 1, 4, 9, 5] := by
  decide +kernel
example : functionInto ⟨true, true, 2⟩ (fun x : ℤ => x * x) [1, 2, 3, 0, 0, 5] ⟨3, 2⟩ ⟨0, 3⟩ = .ok [1, 2, 3, 1, 4, 9] := by
  decide +kernel
example : functionInto ⟨true, true, 2⟩ (fun x : ℤ => x * x) [1, 2, 3, 0, 0] ⟨3, 2⟩ ⟨0, 3⟩ = .ub := by decide +kernel

/-- **C45** LogSpace, the allocating form: the powers of the base at the points of LinSpace. -/
theorem C45_logSpace_new (e : Exec) (start stop base : ℝ) (hb : 0 < base) (count : ℕ) (inclusive : Bool) :
    ∃ x y : List ℝ, linSpaceNew e start stop count inclusive = .ok x ∧ logSpaceNew e start stop count base inclusive = .ok y ∧
      y.length = count ∧ y = x.map fun t => base ^ t := by
  have hw : (⟨0, count⟩ : Span).Within (List.replicate count (0 : ℝ)) := by simp [Span.Within]
  obtain ⟨m, m', x, y, e1, h1, e2, h2, h3⟩ := C45_logSpace e _ _ hw start stop base hb inclusive
  refine ⟨m, m', e1, e2, by rw [h2.length]; simp, ?_⟩
  apply List.ext_getElem?
  intro i
  by_cases hi : i < count
  · have a := h1.written i hi
    have b := h2.written i hi
    simp only [Nat.zero_add] at a b
    rw [b, List.getElem?_map, a, h3 i hi]; rfl
  · rw [List.getElem?_eq_none (by rw [h2.length]; simp; omega), List.getElem?_eq_none (by rw [List.length_map, h1.length]; simp; omega)]

end Verif
