import Verif.Model.Descs

/-!
# C52: filter descriptions reject invalid bands

`FloatVal` are the values of a floating point type: extended reals and not-a-number.
-/

namespace Verif

/-- the parameter is the number `x` -/
def FloatVal.Is (f : FloatVal) (x : ℝ) : Prop := f = .num x

/-- the parameters are numbers in increasing order between zero and one -/
def ValidEdges (fs : List FloatVal) : Prop :=
  ∃ xs : List ℝ, fs = xs.map (fun (x : ℝ) => FloatVal.num x) ∧ xs.Pairwise (· ≤ ·) ∧ ∀ x ∈ xs, 0 ≤ x ∧ x ≤ 1

theorem throwIfNotNormalized_eq (f : FloatVal) (x : ℝ) (hx : f = .num x) (h0 : 0 ≤ x) (h1 : x ≤ 1) :
    throwIfNotNormalized f = .ok () := by
  subst hx
  unfold throwIfNotNormalized
  rw [if_neg]
  have : FloatVal.le (.num 0) (.num (x : EReal)) = true := by
    simp only [FloatVal.le, decide_eq_true_eq]; exact_mod_cast h0
  have h2 : FloatVal.le (.num (x : EReal)) (.num 1) = true := by
    simp only [FloatVal.le, decide_eq_true_eq]; exact_mod_cast h1
  show ¬ (!(FloatVal.le (.num 0) (.num (x : EReal)) && FloatVal.le (.num (x : EReal)) (.num 1))) = true
  rw [this, h2]
  decide

theorem throwIfNotNormalized_throws (f : FloatVal) (h : ¬ ∃ x : ℝ, f = .num x ∧ 0 ≤ x ∧ x ≤ 1) : throwIfNotNormalized f = .throws := by
  unfold throwIfNotNormalized
  rw [if_pos]
  show (!(FloatVal.le (.num 0) f && FloatVal.le f (.num 1))) = true
  rw [Bool.not_eq_true', Bool.and_eq_false_iff]
  by_contra hc
  push Not at hc
  obtain ⟨ha, hb⟩ := hc
  cases f with
  | nan => exact ha rfl
  | num y =>
    have ha' : (0 : EReal) ≤ y := by simpa [FloatVal.le] using ha
    have hb' : y ≤ (1 : EReal) := by simpa [FloatVal.le] using hb
    induction y using EReal.rec with
    | bot => exact absurd ha' (by simp)
    | top => exact absurd hb' (by rw [top_le_iff]; exact EReal.coe_ne_top 1)
    | coe x => exact h ⟨x, rfl, by exact_mod_cast ha', by exact_mod_cast hb'⟩

theorem throwIfNotSorted_real (x : ℝ) (xs : List ℝ) :
    throwIfNotSorted (FloatVal.num x) (xs.map fun (x : ℝ) => FloatVal.num x) =
      open Classical in if (x :: xs).Pairwise (· ≤ ·) then .ok () else .throws := by
  have key : ∀ (xs : List ℝ) (x : ℝ) (b : Bool),
      ((xs.map fun (x : ℝ) => FloatVal.num x).foldl SortChain.lt ⟨FloatVal.num x, b⟩).result = true ↔
        b = true ∧ (x :: xs).IsChain (· ≤ ·) := by
    intro xs
    induction xs with
    | nil => intro x b; simp
    | cons y ys ih =>
      intro x b
      rw [List.map_cons, List.foldl_cons]
      have : SortChain.lt ⟨FloatVal.num x, b⟩ (FloatVal.num (y : EReal)) = ⟨FloatVal.num (y : EReal), b && FloatVal.le (.num x) (.num y)⟩ := rfl
      rw [this, ih, Bool.and_eq_true, List.isChain_cons_cons]
      simp only [FloatVal.le, decide_eq_true_eq, EReal.coe_le_coe_iff]
      tauto
  unfold throwIfNotSorted
  classical
  by_cases h : (x :: xs).Pairwise (· ≤ ·)
  · rw [if_pos h, if_neg]
    rw [(key xs x true).2 ⟨rfl, List.isChain_iff_pairwise.2 h⟩]
    decide
  · rw [if_neg h, if_pos]
    rw [Bool.not_eq_true', Bool.eq_false_iff]
    intro hc
    exact h (List.isChain_iff_pairwise.1 ((key xs x true).1 hc).2)

/-- all edges normalized, or the exception -/
theorem edges_cases (fs : List FloatVal) :
    (∃ xs : List ℝ, fs = xs.map (fun (x : ℝ) => FloatVal.num x) ∧ ∀ x ∈ xs, 0 ≤ x ∧ x ≤ 1) ∨
    ∃ pre f post, fs = pre ++ f :: post ∧ (∀ g ∈ pre, throwIfNotNormalized g = .ok ()) ∧ throwIfNotNormalized f = .throws := by
  induction fs with
  | nil => exact Or.inl ⟨[], rfl, by simp⟩
  | cons f fs ih =>
    by_cases h : ∃ x : ℝ, f = .num x ∧ 0 ≤ x ∧ x ≤ 1
    · obtain ⟨x, hx, h0, h1⟩ := h
      rcases ih with ⟨xs, hxs, hall⟩ | ⟨pre, g, post, h2, h3, h4⟩
      · exact Or.inl ⟨x :: xs, by rw [hx, hxs]; rfl, by simpa using ⟨⟨h0, h1⟩, hall⟩⟩
      · refine Or.inr ⟨f :: pre, g, post, by rw [h2]; rfl, ?_, h4⟩
        intro g' hg'
        rcases List.mem_cons.1 hg' with rfl | hg'
        · exact throwIfNotNormalized_eq _ x hx h0 h1
        · exact h3 g' hg'
    · exact Or.inr ⟨[], f, fs, rfl, by simp, throwIfNotNormalized_throws f h⟩

/-- the sequence of checks of all the setters -/
noncomputable def checkEdges (fs : List FloatVal) : Out Unit := do
  fs.foldl (fun o f => o >>= fun _ => throwIfNotNormalized f) (.ok ())
  match fs with
  | [] => pure ()
  | f :: fs => throwIfNotSorted f fs

theorem checkEdges_eq (fs : List FloatVal) : checkEdges fs = open Classical in if ValidEdges fs then .ok () else .throws := by
  classical
  have hth : ∀ gs : List FloatVal, gs.foldl (fun (o : Out Unit) f => o >>= fun _ => throwIfNotNormalized f) .throws = .throws := by
    intro gs
    induction gs with
    | nil => rfl
    | cons g gs ih => rw [List.foldl_cons]; exact ih
  have hok : ∀ gs : List FloatVal, (∀ g ∈ gs, throwIfNotNormalized g = .ok ()) →
      gs.foldl (fun (o : Out Unit) f => o >>= fun _ => throwIfNotNormalized f) (.ok ()) = .ok () := by
    intro gs
    induction gs with
    | nil => intro _; rfl
    | cons g gs ih =>
      intro h
      rw [List.foldl_cons, Out.ok_bind, h g (by simp)]
      exact ih fun g' hg' => h g' (by simp [hg'])
  unfold checkEdges
  rcases edges_cases fs with ⟨xs, rfl, hall⟩ | ⟨pre, f, post, rfl, hpre, hf⟩
  · rw [hok _ (by
      intro g hg
      obtain ⟨x, hx, rfl⟩ := List.mem_map.1 hg
      exact throwIfNotNormalized_eq _ x rfl (hall x hx).1 (hall x hx).2), Out.ok_bind]
    have hval : ValidEdges (xs.map fun (x : ℝ) => FloatVal.num x) ↔ xs.Pairwise (· ≤ ·) := by
      constructor
      · rintro ⟨ys, hy, hp, -⟩
        have : xs = ys := by
          have hinj : Function.Injective (fun (x : ℝ) => FloatVal.num x) := by
            intro a b hab
            simpa using hab
          exact List.map_injective_iff.2 hinj hy
        rw [this]
        exact hp
      · intro hp
        exact ⟨xs, rfl, hp, hall⟩
    cases xs with
    | nil => rw [if_pos (hval.2 List.Pairwise.nil)]; rfl
    | cons x xs =>
      show throwIfNotSorted (FloatVal.num x) (xs.map fun (x : ℝ) => FloatVal.num x) = _
      rw [throwIfNotSorted_real]
      simp only [hval]
  · have hnv : ¬ ValidEdges (pre ++ f :: post) := by
      rintro ⟨ys, hy, -, hall⟩
      have hfm : f ∈ ys.map (fun (x : ℝ) => FloatVal.num x) := by rw [← hy]; simp
      obtain ⟨x, hx, hxf⟩ := List.mem_map.1 hfm
      rw [throwIfNotNormalized_eq f x hxf.symm (hall x hx).1 (hall x hx).2] at hf
      exact absurd hf (by simp)
    rw [if_neg hnv, List.foldl_append, hok _ hpre, List.foldl_cons, Out.ok_bind, hf, hth]
    rfl

/-- all setters: what they accept and what they return -/
theorem setter_eq {D : Type} (fs : List FloatVal) (d : D) :
    (checkEdges fs >>= fun _ => (pure d : Out D)) = open Classical in if ValidEdges fs then .ok d else .throws := by
  classical
  rw [checkEdges_eq]
  by_cases h : ValidEdges fs
  · rw [if_pos h, if_pos h]; rfl
  · rw [if_neg h, if_neg h]; rfl

section
variable {W R : Type}
open Classical

/-- **C52**, FIR, window method -/
theorem C52_fir_windowed (s : SplitDescWindowed FloatVal W) (b : BandDescWindowed FloatVal W) (f lower upper : FloatVal) :
    s.setCutoff f = (if ValidEdges [f] then .ok { s with cutoff := f } else .throws) ∧
    b.setBand lower upper = (if ValidEdges [lower, upper] then .ok { b with lower := lower, upper := upper } else .throws) := by
  constructor
  · rw [← setter_eq]
    unfold SplitDescWindowed.setCutoff checkEdges
    simp only [List.foldl_cons, List.foldl_nil, Out.ok_bind]
    cases throwIfNotNormalized f <;> rfl
  · rw [← setter_eq]
    unfold BandDescWindowed.setBand checkEdges
    simp only [List.foldl_cons, List.foldl_nil, Out.ok_bind]
    cases throwIfNotNormalized lower <;> cases throwIfNotNormalized upper <;> rfl

/-- **C52**, FIR, least squares -/
theorem C52_fir_leastSquares (s : SplitDescLS FloatVal) (b : BandDescLS FloatVal) (f₁ f₂ f₃ f₄ : FloatVal) :
    s.setCutoff f₁ f₂ = (if ValidEdges [f₁, f₂] then .ok { s with cutoffBegin := f₁, cutoffEnd := f₂ } else .throws) ∧
    b.setBand f₁ f₂ f₃ f₄ = (if ValidEdges [f₁, f₂, f₃, f₄]
      then .ok { b with lowerBegin := f₁, lowerEnd := f₂, upperBegin := f₃, upperEnd := f₄ } else .throws) := by
  constructor
  · rw [← setter_eq]
    unfold SplitDescLS.setCutoff checkEdges
    simp only [List.foldl_cons, List.foldl_nil, Out.ok_bind]
    cases throwIfNotNormalized f₁ <;> cases throwIfNotNormalized f₂ <;> rfl
  · rw [← setter_eq]
    unfold BandDescLS.setBand checkEdges
    simp only [List.foldl_cons, List.foldl_nil, Out.ok_bind]
    cases throwIfNotNormalized f₁ <;> cases throwIfNotNormalized f₂ <;> cases throwIfNotNormalized f₃ <;>
      cases throwIfNotNormalized f₄ <;> rfl

/-- **C52**, IIR, all four methods -/
theorem C52_iir (s : SplitDescIir FloatVal R) (b : BandDescIir FloatVal R) (f lower upper : FloatVal) :
    s.setCutoff f = (if ValidEdges [f] then .ok { s with cutoff := f } else .throws) ∧
    b.setBand lower upper = (if ValidEdges [lower, upper] then .ok { b with lower := lower, upper := upper } else .throws) := by
  constructor
  · rw [← setter_eq]
    unfold SplitDescIir.setCutoff checkEdges
    simp only [List.foldl_cons, List.foldl_nil, Out.ok_bind]
    cases throwIfNotNormalized f <;> rfl
  · rw [← setter_eq]
    unfold BandDescIir.setBand checkEdges
    simp only [List.foldl_cons, List.foldl_nil, Out.ok_bind]
    cases throwIfNotNormalized lower <;> cases throwIfNotNormalized upper <;> rfl

end

/-- **C52**: the check itself, for any number of edges. -/
theorem C52_sorted (x : ℝ) (xs : List ℝ) :
    throwIfNotSorted (FloatVal.num x) (xs.map fun (x : ℝ) => FloatVal.num x) =
      open Classical in if (x :: xs).Pairwise (· ≤ ·) then .ok () else .throws := throwIfNotSorted_real x xs

/-- **C52**: not-a-number and the infinities are never valid edges. -/
theorem C52_not_finite (pre post : List FloatVal) :
    ¬ ValidEdges (pre ++ .nan :: post) ∧ ¬ ValidEdges (pre ++ .num ⊤ :: post) ∧ ¬ ValidEdges (pre ++ .num ⊥ :: post) := by
  refine ⟨?_, ?_, ?_⟩ <;> rintro ⟨ys, hy, -, -⟩
  · have hfm : FloatVal.nan ∈ ys.map (fun (x : ℝ) => FloatVal.num x) := by rw [← hy]; simp
    obtain ⟨x, -, hx⟩ := List.mem_map.1 hfm
    exact absurd hx (by simp)
  · have hfm : FloatVal.num ⊤ ∈ ys.map (fun (x : ℝ) => FloatVal.num x) := by rw [← hy]; simp
    obtain ⟨x, -, hx⟩ := List.mem_map.1 hfm
    exact absurd hx (by simp)
  · have hfm : FloatVal.num ⊥ ∈ ys.map (fun (x : ℝ) => FloatVal.num x) := by rw [← hy]; simp
    obtain ⟨x, -, hx⟩ := List.mem_map.1 hfm
    exact absurd hx (by simp)

/-- **C52**: the other setters keep what was set before. -/
theorem C52_other_setters {F : Type} (s : SplitDescLS F) (b : BandDescLS F) (a₁ a₂ a₃ a₄ a₅ : F) (n : ℕ) :
    s.setWeight a₁ a₂ a₃ = { s with weightLow := a₁, weightTransition := a₂, weightHigh := a₃ } ∧ s.setGrid n = { s with grid := n } ∧
    b.setWeight a₁ a₂ a₃ a₄ a₅ = { b with weightLow := a₁, weightTransition1 := a₂, weightMid := a₃, weightTransition2 := a₄, weightHigh := a₅ } ∧
    b.setGrid n = { b with grid := n } := ⟨rfl, rfl, rfl, rfl⟩

-- the hypotheses are met, and fail
example : ValidEdges [.num ((0.25 : ℝ) : EReal), .num ((0.75 : ℝ) : EReal)] :=
  ⟨[0.25, 0.75], rfl, by simp; norm_num, by simp; norm_num⟩

example : ¬ ValidEdges [.num ((0.75 : ℝ) : EReal), .num ((0.25 : ℝ) : EReal)] := by
  rintro ⟨ys, hy, hp, -⟩
  match ys, hy with
  | [a, b], hy =>
    simp only [List.map_cons, List.map_nil, List.cons.injEq, FloatVal.num.injEq, EReal.coe_eq_coe_iff, and_true] at hy
    obtain ⟨rfl, rfl⟩ := hy
    simp at hp
    norm_num at hp

/-- **C52**: the setters that do not check anything store their argument and keep the rest. -/
theorem C52_window_ripple {F W W' R : Type} [FloatCmp F] (s : SplitDescWindowed F W) (b : BandDescWindowed F W) (w : W')
    (i : SplitDescIir F R) (j : BandDescIir F R) (r : R) :
    (∃ s', s.setWindow w = .ok s' ∧ s'.cutoff = s.cutoff ∧ s'.window = w) ∧
    (∃ b', b.setWindow w = .ok b' ∧ b'.lower = b.lower ∧ b'.upper = b.upper ∧ b'.window = w) ∧
    ((i.setRipple r).cutoff = i.cutoff ∧ (i.setRipple r).ripple = r) ∧
    ((j.setRipple r).lower = j.lower ∧ (j.setRipple r).upper = j.upper ∧ (j.setRipple r).ripple = r) :=
  ⟨⟨_, rfl, rfl, rfl⟩, ⟨_, rfl, rfl, rfl, rfl⟩, ⟨rfl, rfl⟩, ⟨rfl, rfl, rfl⟩⟩

/-- numbers between zero and one in increasing order -/
def SortedUnit (xs : List ℝ) : Prop := xs.Pairwise (· ≤ ·) ∧ ∀ x ∈ xs, 0 ≤ x ∧ x ≤ 1

/-- **C52**: every description that was never touched has valid edges. -/
theorem C52_defaults {W R : Type} (w : W) (r : R) :
    SortedUnit [(defaultSplitWindowed w).cutoff] ∧ SortedUnit [(defaultBandWindowed w).lower, (defaultBandWindowed w).upper] ∧
    SortedUnit [defaultSplitLS.cutoffBegin, defaultSplitLS.cutoffEnd] ∧
    SortedUnit [defaultBandLS.lowerBegin, defaultBandLS.lowerEnd, defaultBandLS.upperBegin, defaultBandLS.upperEnd] ∧
    SortedUnit [(defaultSplitIir r).cutoff] ∧ SortedUnit [(defaultBandIir r).lower, (defaultBandIir r).upper] := by
  simp only [defaultSplitWindowed, defaultBandWindowed, defaultSplitLS, defaultBandLS, defaultSplitIir, defaultBandIir, SortedUnit]
  refine ⟨?_, ?_, ?_, ?_, ?_, ?_⟩ <;> constructor <;> simp <;> norm_num

end Verif
