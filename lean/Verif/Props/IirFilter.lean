import Verif.Lemmas.IirFilter

/-!
# Properties C20–C23: IIR realizations (exact arithmetic over any field)
-/

set_option linter.unusedSectionVars false

namespace Verif
open Finset

section
variable {K : Type} [Field K]

theorem dfi_make (ord : ℕ) : (DirectFormI.make ord : DirectFormI K) = ⟨hist ord [], hist (ord + 1) []⟩ := by
  simp [DirectFormI.make, resizeZ, hist_nil]

theorem dfii_make (ord : ℕ) : (DirectFormII.make ord : DirectFormII K) = ⟨hist (ord + 1) []⟩ := by
  simp [DirectFormII.make, resizeZ, hist_nil]

theorem sig_last {a : List K} (h : sig a (a.length - 1) ≠ 0) :
    ∃ r lead, a = r ++ [lead] ∧ lead ≠ 0 ∧ sig a (a.length - 1) = lead := by
  have hne : a ≠ [] := by rintro rfl; simp [sig] at h
  obtain ⟨r, lead, rfl⟩ := den_split hne
  have e : sig (r ++ [lead]) ((r ++ [lead]).length - 1) = lead := by simp [sig]
  exact ⟨r, lead, rfl, by rwa [e] at h, e⟩

/-- **C20**: a fresh direct form I filter of sufficient order produces the response of the difference
equation of its transfer function, for any (also non-monic) denominator with nonzero leading coefficient and
any input. -/
theorem C20_directFormI (sys : TransferFn K) (hlead : sig sys.den (sys.den.length - 1) ≠ 0) (ord : ℕ)
    (hord : sys.order ≤ ord) (x : List K) :
    ∃ y s', DirectFormI.feed sys x (DirectFormI.make ord) = .ok (y, s') ∧ IsResponse sys.num sys.den x y := by
  obtain ⟨num, den⟩ := sys
  obtain ⟨r, lead, rfl, h0, -⟩ := sig_last hlead
  obtain ⟨ws, h1, h2⟩ := dfi_feed num r lead h0 ord hord x [] [] (sigI_reg_response _ _)
  rw [dfi_make]
  exact ⟨ws, _, h1, by simpa using h2⟩

/-- The difference equation has only one solution, so C20 determines the output completely. -/
theorem C20_response_unique {b a x y y' : List K} (h0 : sig a (a.length - 1) ≠ 0)
    (h : IsResponse b a x y) (h' : IsResponse b a x y') : y = y' := h.unique h0 h'

example : DirectFormI.feed ⟨[1, 2], [-1, (2 : ℚ)]⟩ [1, 0, 0] (DirectFormI.make 1) =
    .ok ([1, 1, 1 / 2], ⟨[1 / 2], [0, 0]⟩) := by decide +kernel

/-- Too small an order is refused. -/
theorem C20_refuses_small_order (sys : TransferFn K) (ord : ℕ) (h : ord < sys.order) (x : List K) :
    DirectFormI.feed sys x (DirectFormI.make ord) = .assertFail ∧
    DirectFormII.feed sys x (DirectFormII.make ord) = .assertFail := by
  constructor
  · unfold DirectFormI.feed
    rw [cassert, if_neg]
    · rfl
    · rw [dfi_make]; simp [DirectFormI.order]; omega
  · unfold DirectFormII.feed
    rw [cassert, if_neg]
    · rfl
    · rw [dfii_make]; simp only [DirectFormII.order, not_and]; intro hne; rw [if_pos hne]; simp; omega

/-- **C21**, what direct form II computes for an arbitrary denominator: the response of the numerator divided
by the leading denominator coefficient over the denominator in which *only the leading coefficient* has been
replaced by one. -/
theorem C21_directFormII_actual (num r : List K) (lead : K) (ord : ℕ)
    (hord : (TransferFn.mk num (r ++ [lead])).order ≤ ord) (x : List K) :
    ∃ y s', DirectFormII.feed ⟨num, r ++ [lead]⟩ x (DirectFormII.make ord) = .ok (y, s') ∧
      IsResponse (num.map (· * (1 / lead))) (r ++ [1]) x y := by
  rw [dfii_make]
  exact dfii_feed num r lead ord hord x

/-- **C21**, the part that holds: monic denominators.  Missing: denominators with another leading coefficient,
for which the claim is false (`C21_nonmonic_wrong`). -/
theorem C21_directFormII_monic_partial (sys : TransferFn K) (hlead : sig sys.den (sys.den.length - 1) = 1)
    (ord : ℕ) (hord : sys.order ≤ ord) (x : List K) :
    ∃ y s', DirectFormII.feed sys x (DirectFormII.make ord) = .ok (y, s') ∧ IsResponse sys.num sys.den x y := by
  obtain ⟨num, den⟩ := sys
  obtain ⟨r, lead, rfl, -, e⟩ := sig_last (a := den) (by simp only at hlead; rw [hlead]; exact one_ne_zero)
  simp only at hlead
  rw [e] at hlead
  subst hlead
  obtain ⟨y, s', h1, h2⟩ := C21_directFormII_actual num r 1 ord hord x
  refine ⟨y, s', h1, ?_⟩
  have : num.map (· * (1 / (1 : K))) = num := by simp
  rwa [this] at h2

/-- **C21** fails for non-monic denominators: `y n - 1/2 y (n-1) = x n`, written as `2 y n - y (n-1) = 2 x n`,
answers an impulse with `1, 1, 1` instead of `1, 1/2, 1/4`. -/
theorem C21_nonmonic_wrong :
    ∃ (sys : TransferFn ℚ) (x y : List ℚ) (s' : DirectFormII ℚ), sig sys.den (sys.den.length - 1) ≠ 0 ∧
      DirectFormII.feed sys x (DirectFormII.make sys.order) = .ok (y, s') ∧ ¬ IsResponse sys.num sys.den x y := by
  refine ⟨⟨[2], [-1, 2]⟩, [1, 0, 0], [1, 1, 1], ⟨[1 / 2, 1 / 2]⟩, by norm_num [sig], by decide +kernel, ?_⟩
  rintro ⟨-, h⟩
  have := h 1 (by norm_num)
  norm_num [sig, sigI, Finset.sum_range_succ] at this

/-- **C20/C21**: on monic denominators the two direct forms are interchangeable. -/
theorem C21_same_as_directFormI (sys : TransferFn K) (hlead : sig sys.den (sys.den.length - 1) = 1)
    (ord ord' : ℕ) (hord : sys.order ≤ ord) (hord' : sys.order ≤ ord') (x : List K) :
    ∃ y s s', DirectFormI.feed sys x (DirectFormI.make ord) = .ok (y, s) ∧
      DirectFormII.feed sys x (DirectFormII.make ord') = .ok (y, s') := by
  obtain ⟨y, s, h1, h2⟩ := C20_directFormI sys (by rw [hlead]; exact one_ne_zero) ord hord x
  obtain ⟨y', s', h1', h2'⟩ := C21_directFormII_monic_partial sys hlead ord' hord' x
  have := h2.unique (by rw [hlead]; exact one_ne_zero) h2'
  subst this
  exact ⟨y, s, s', h1, h1'⟩

/-- **C22**: a fresh cascaded form with enough sections produces the response of the sections applied one
after the other, each obeying its own difference equation. -/
theorem C22_cascade (sys : List (Biquad K)) (ord : ℕ) (hord : 2 * sys.length ≤ ord + 1) (x : List K) :
    ∃ y s', CascadedForm.feed sys x (CascadedForm.make ord) = .ok (y, s') ∧
      IsCascadeResponse (sys.map Biquad.coeffs) x y := by
  unfold CascadedForm.make
  exact cascade_feed sys _ (by omega) x

/-- The output of a cascade is determined too. -/
theorem C22_unique : ∀ (sys : List (SectionCoeffs K)) (x y y' : List K),
    IsCascadeResponse sys x y → IsCascadeResponse sys x y' → y = y'
  | [], x, y, y', h, h' => by rw [show y = x from h, show y' = x from h']
  | s :: ss, x, y, y', ⟨m, h1, h2⟩, ⟨m', h1', h2'⟩ => by
    have := h1.unique (by simp [sig]) h1'
    subst this
    exact C22_unique ss m y y' h2 h2'

/-- **C22** as used with `order()`: it reports an order that the object indeed supports. -/
theorem C22_order (ord : ℕ) : ord ≤ (CascadedForm.make ord : CascadedForm K).order ∧
    (CascadedForm.make ord : CascadedForm K).order ≤ ord + 1 := by
  simp only [CascadedForm.order, CascadedForm.make, List.length_replicate]
  omega

example : CascadedForm.feed [⟨1, 0, 1, 0, -1 / 2, 2, 1⟩, ⟨0, 0, 2, 1, 0, 0, 2⟩] [(1 : ℚ), 0, 0]
    (CascadedForm.make 4) = .ok ([2, 1, 1 / 2], ⟨[⟨1, 0, 0⟩, ⟨1, 1 / 2, 5 / 4⟩, ⟨2, 1, 1 / 2⟩]⟩) := by
  decide +kernel

/-! ### chunks, reset -/

theorem feedAll_inv_state {σ : Type} {step : σ → K → Out (K × σ)} (P : σ → Prop)
    (h : ∀ s x y s', P s → step s x = .ok (y, s') → P s') :
    ∀ (xs : List K) s ys s', P s → feedAll step xs s = .ok (ys, s') → P s' ∧ ys.length = xs.length
  | [], s, ys, s', hp, he => by
    simp only [feedAll, Out.ok.injEq, Prod.mk.injEq] at he
    obtain ⟨rfl, rfl⟩ := he
    exact ⟨hp, rfl⟩
  | x :: xs, s, ys, s', hp, he => by
    simp only [feedAll] at he
    rw [Out.bind_eq_ok] at he
    obtain ⟨⟨y, s1⟩, h1, he⟩ := he
    simp only at he
    rw [Out.bind_eq_ok] at he
    obtain ⟨⟨ys', s2⟩, h2, he⟩ := he
    simp only [Out.pure_def, Out.ok.injEq, Prod.mk.injEq] at he
    obtain ⟨rfl, rfl⟩ := he
    obtain ⟨a, b⟩ := feedAll_inv_state P h xs s1 ys' s2 (h s x y s1 hp h1) h2
    exact ⟨a, by simp [b]⟩

/-- a `feed` that consists of a one-off check that depends only on an invariant of the state -/
theorem stream_of_feedAll {σ : Type} (feed : List K → σ → Out (List K × σ)) (step : σ → K → Out (K × σ))
    (P : σ → Prop) (hfeed : ∀ xs s, P s → feed xs s = feedAll step xs s)
    (hP : ∀ s x y s', P s → step s x = .ok (y, s') → P s') :
    ∀ (blocks : List (List K)) (s : σ), P s → iirStream feed blocks s = feed blocks.flatten s
  | [], s, hs => by rw [List.flatten_nil, hfeed _ _ hs]; rfl
  | b :: bs, s, hs => by
    unfold iirStream iirFilter
    rw [cassert_true (by simp), Out.ok_bind, hfeed _ _ hs, hfeed _ _ hs, List.flatten_cons, feedAll_append]
    cases h : feedAll step b s with
    | ok r =>
      simp only [Out.ok_bind]
      have := (feedAll_inv_state P hP b s r.1 r.2 hs h).1
      rw [stream_of_feedAll feed step P hfeed hP bs r.2 this, hfeed _ _ this]
    | assertFail => rfl
    | throws => rfl
    | ub => rfl

theorem shiftIn_length {s s' : List K} {x : K} (h : shiftIn s x = .ok s') : s'.length = s.length := by
  unfold shiftIn at h
  split at h
  · cases h
  · rename_i hne
    simp only [Out.ok.injEq] at h
    subst h
    have := List.length_pos_iff.2 hne
    simp; omega

theorem dfi_step_length {fw rc : List K} {nrm : K} {o1 o2 : ℕ} {s s' : DirectFormI K} {x y : K}
    (h : DirectFormI.step fw rc nrm o1 o2 s x = .ok (y, s')) :
    s'.recState.length = s.recState.length ∧ s'.fwState.length = s.fwState.length := by
  unfold DirectFormI.step at h
  rw [Out.bind_eq_ok] at h; obtain ⟨f, h1, h⟩ := h
  rw [Out.bind_eq_ok] at h; obtain ⟨_, _, h⟩ := h
  rw [Out.bind_eq_ok] at h; obtain ⟨_, _, h⟩ := h
  simp only at h
  rw [Out.bind_eq_ok] at h; obtain ⟨r, h2, h⟩ := h
  simp only [Out.pure_def, Out.ok.injEq, Prod.mk.injEq] at h
  obtain ⟨-, rfl⟩ := h
  refine ⟨?_, shiftIn_length h1⟩
  split at h2
  · exact shiftIn_length h2
  · simp only [Out.pure_def, Out.ok.injEq] at h2
    rw [← h2]

theorem dfii_step_length {fw rc : List K} {nrm : K} {o1 o2 : ℕ} {s s' : DirectFormII K} {x y : K}
    (h : DirectFormII.step fw rc nrm o1 o2 s x = .ok (y, s')) : s'.state.length = s.state.length := by
  unfold DirectFormII.step at h
  rw [Out.bind_eq_ok] at h; obtain ⟨_, _, h⟩ := h
  simp only at h
  rw [Out.bind_eq_ok] at h; obtain ⟨f, h1, h⟩ := h
  rw [Out.bind_eq_ok] at h; obtain ⟨_, _, h⟩ := h
  simp only [Out.pure_def, Out.ok.injEq, Prod.mk.injEq] at h
  obtain ⟨-, rfl⟩ := h
  exact shiftIn_length h1

theorem length_ne_nil {α : Type} {a b : List α} (h : a.length = b.length) : a ≠ [] ↔ b ≠ [] := by
  rw [← List.length_pos_iff, ← List.length_pos_iff, h]

/-- **C23**, direct form I: from any state in which the object accepts the system, cutting the input into
blocks makes no difference, neither to the output nor to the final state. -/
theorem C23_chunks_directFormI (sys : TransferFn K) (s : DirectFormI K)
    (hok : DirectFormI.feed sys [] s = .ok ([], s)) (blocks : List (List K)) :
    iirStream (DirectFormI.feed sys) blocks s = DirectFormI.feed sys blocks.flatten s := by
  unfold DirectFormI.feed at hok
  rw [Out.bind_eq_ok] at hok; obtain ⟨_, a1, hok⟩ := hok
  rw [Out.bind_eq_ok] at hok; obtain ⟨_, a2, hok⟩ := hok
  simp only at hok
  rw [Out.bind_eq_ok] at hok; obtain ⟨_, a3, hok⟩ := hok
  rw [Out.bind_eq_ok] at hok; obtain ⟨_, a4, hok⟩ := hok
  rw [Out.bind_eq_ok] at hok; obtain ⟨lead, a5, -⟩ := hok
  rw [cassert_eq_ok] at a1 a2 a3 a4
  apply stream_of_feedAll _ (DirectFormI.step sys.num (sys.den.take (usub sys.den.length 1)) (1 / lead)
      (usub s.fwState.length sys.num.length)
      (usub s.recState.length (sys.den.take (usub sys.den.length 1)).length))
    (fun t => t.recState.length = s.recState.length ∧ t.fwState.length = s.fwState.length) ?_ ?_ blocks s ⟨rfl, rfl⟩
  · rintro xs t ⟨h1, h2⟩
    unfold DirectFormI.feed
    have c1 : t.fwState ≠ [] ∧ t.order ≥ sys.order := by
      refine ⟨(length_ne_nil h2).2 a1.1, ?_⟩
      have := a1.2
      unfold DirectFormI.order at *
      omega
    rw [cassert_true c1, Out.ok_bind, cassert_true a2, Out.ok_bind, h1, h2]
    simp only
    rw [cassert_true a3, Out.ok_bind, cassert_true a4, Out.ok_bind, a5, Out.ok_bind]
  · rintro t x y t' ⟨h1, h2⟩ h
    obtain ⟨e1, e2⟩ := dfi_step_length h
    exact ⟨e1.trans h1, e2.trans h2⟩

/-- **C23**, direct form II. -/
theorem C23_chunks_directFormII (sys : TransferFn K) (s : DirectFormII K)
    (hok : DirectFormII.feed sys [] s = .ok ([], s)) (blocks : List (List K)) :
    iirStream (DirectFormII.feed sys) blocks s = DirectFormII.feed sys blocks.flatten s := by
  unfold DirectFormII.feed at hok
  rw [Out.bind_eq_ok] at hok; obtain ⟨_, a1, hok⟩ := hok
  rw [Out.bind_eq_ok] at hok; obtain ⟨_, a2, hok⟩ := hok
  simp only at hok
  rw [Out.bind_eq_ok] at hok; obtain ⟨_, a3, hok⟩ := hok
  rw [Out.bind_eq_ok] at hok; obtain ⟨_, a4, hok⟩ := hok
  rw [Out.bind_eq_ok] at hok; obtain ⟨lead, a5, -⟩ := hok
  rw [cassert_eq_ok] at a1 a2 a3 a4
  apply stream_of_feedAll _ (DirectFormII.step sys.num (sys.den.take (usub sys.den.length 1)) (1 / lead)
      (usub s.state.length sys.num.length)
      (usub s.state.length (sys.den.take (usub sys.den.length 1)).length))
    (fun t => t.state.length = s.state.length) ?_ ?_ blocks s rfl
  · rintro xs t h2
    unfold DirectFormII.feed
    have c1 : t.state ≠ [] ∧ t.order ≥ sys.order := by
      have hne := (length_ne_nil h2).2 a1.1
      refine ⟨hne, ?_⟩
      have := a1.2
      unfold DirectFormII.order at *
      rw [if_pos a1.1] at this
      rw [if_pos hne]
      omega
    rw [cassert_true c1, Out.ok_bind, cassert_true a2, Out.ok_bind, h2]
    simp only
    rw [cassert_true a3, Out.ok_bind, cassert_true a4, Out.ok_bind, a5, Out.ok_bind]
  · rintro t x y t' h1 h
    exact (dfii_step_length h).trans h1

/-- **C23**, cascaded form: no condition at all. -/
theorem C23_chunks_cascade (sys : List (Biquad K)) (s : CascadedForm K) (blocks : List (List K)) :
    iirStream (CascadedForm.feed sys) blocks s = CascadedForm.feed sys blocks.flatten s :=
  stream_of_feedAll _ (CascadedForm.feed1 sys) (fun _ => True) (fun _ _ _ => rfl) (fun _ _ _ _ _ _ => trivial)
    blocks s trivial

/-- **C23**: a freshly constructed object of sufficient order accepts the system, so the chunk theorems apply
to it. -/
theorem C23_fresh_accepts (sys : TransferFn K) (hden : sys.den ≠ []) (ord : ℕ) (hord : sys.order ≤ ord) :
    DirectFormI.feed sys [] (DirectFormI.make ord) = .ok ([], DirectFormI.make ord) ∧
    DirectFormII.feed sys [] (DirectFormII.make ord) = .ok ([], DirectFormII.make ord) := by
  obtain ⟨num, den⟩ := sys
  obtain ⟨r, lead, rfl⟩ := den_split hden
  have hnum : num.length ≤ ord + 1 := by
    unfold TransferFn.order polyOrder at hord
    simp only at hord
    split at hord <;> omega
  have hr : r.length ≤ ord := by
    unfold TransferFn.order polyOrder at hord
    simp at hord
    omega
  have hu : usub (r ++ [lead]).length 1 = r.length := by rw [usub_eq (by simp)]; simp
  have hrd : rd (r ++ [lead]) (((r ++ [lead]).length : ℤ) - 1) = .ok lead := by
    have e : (((r ++ [lead]).length : ℕ) : ℤ) - 1 = (r.length : ℕ) := by simp
    rw [e, rd_ofNat (by simp)]
    simp
  have ht : (r ++ [lead]).take r.length = r := by simp
  have hne : hist (ord + 1) ([] : List K) ≠ [] := by
    intro h; have := congrArg List.length h; simp at this
  constructor
  · rw [dfi_make]
    unfold DirectFormI.feed
    simp only [hist_length, DirectFormI.order]
    rw [cassert_true ⟨hne, hord⟩, Out.ok_bind, hu, cassert_true (by simp), Out.ok_bind, ht,
      usub_eq (by omega), cassert_true (by omega), Out.ok_bind, usub_eq hr, cassert_true (by omega),
      Out.ok_bind, hrd]
    rfl
  · rw [dfii_make]
    unfold DirectFormII.feed
    simp only [hist_length, DirectFormII.order]
    rw [cassert_true ⟨hne, by rw [if_pos hne]; simpa using hord⟩, Out.ok_bind, hu, cassert_true (by simp),
      Out.ok_bind, ht, usub_eq (by omega), cassert_true (by omega), Out.ok_bind, usub_eq (by omega),
      cassert_true (by omega), Out.ok_bind, hrd]
    rfl

/-- **C23**: `reset` turns an object with any history into a fresh one (so everything it does afterwards is
independent of the past). -/
theorem C23_reset (s : DirectFormI K) (h : s.fwState.length = s.recState.length + 1)
    (s2 : DirectFormII K) (h2 : s2.state ≠ []) (s3 : CascadedForm K) (h3 : s3.sections ≠ []) :
    s.reset = DirectFormI.make s.order ∧ s2.reset = DirectFormII.make s2.order ∧
      s3.reset = CascadedForm.make s3.order := by
  have hm : ∀ l : List K, (l.map fun _ => (0 : K)) = List.replicate l.length 0 := by simp
  refine ⟨?_, ?_, ?_⟩
  · simp [DirectFormI.reset, DirectFormI.make, DirectFormI.order, resizeZ, h]
  · have := List.length_pos_iff.2 h2
    simp only [DirectFormII.reset, DirectFormII.make, DirectFormII.order, resizeZ, hm]
    rw [if_pos h2]
    simp; omega
  · have := List.length_pos_iff.2 h3
    simp only [CascadedForm.reset, CascadedForm.make, CascadedForm.order]
    congr 1
    have e : (1 + ((max 1 s3.sections.length - 1) * 2 + 1) / 2) = s3.sections.length := by omega
    rw [e]
    simp

/-- **C23**: the shapes that `C23_reset` asks for hold for every object that was constructed with an order and
then used in any way: feeding, resetting and changing the order preserve them. -/
theorem C23_shape (ord : ℕ) :
    (DirectFormI.make ord : DirectFormI K).fwState.length = (DirectFormI.make ord : DirectFormI K).recState.length + 1 ∧
    (∀ (s : DirectFormI K), (s.setOrder ord).fwState.length = (s.setOrder ord).recState.length + 1) ∧
    (∀ (s : DirectFormI K), s.fwState.length = s.recState.length + 1 →
      s.reset.fwState.length = s.reset.recState.length + 1) ∧
    (∀ (s s' : DirectFormI K) sys xs ys, s.fwState.length = s.recState.length + 1 →
      DirectFormI.feed sys xs s = .ok (ys, s') → s'.fwState.length = s'.recState.length + 1 ∧
        s'.order = s.order ∧ ys.length = xs.length) := by
  refine ⟨by simp [dfi_make], ?_, fun s h => by simpa [DirectFormI.reset] using h, fun s s' sys xs ys h he => ?_⟩
  · intro s
    simp [DirectFormI.setOrder, resizeZ]
    omega
  · unfold DirectFormI.feed at he
    rw [Out.bind_eq_ok] at he; obtain ⟨_, _, he⟩ := he
    rw [Out.bind_eq_ok] at he; obtain ⟨_, _, he⟩ := he
    simp only at he
    rw [Out.bind_eq_ok] at he; obtain ⟨_, _, he⟩ := he
    rw [Out.bind_eq_ok] at he; obtain ⟨_, _, he⟩ := he
    rw [Out.bind_eq_ok] at he; obtain ⟨_, _, he⟩ := he
    obtain ⟨⟨e1, e2⟩, e3⟩ := feedAll_inv_state
      (fun t : DirectFormI K => t.recState.length = s.recState.length ∧ t.fwState.length = s.fwState.length)
      (fun t x y t' ht hst => by
        obtain ⟨a, b⟩ := dfi_step_length hst
        exact ⟨a.trans ht.1, b.trans ht.2⟩) xs s ys s' ⟨rfl, rfl⟩ he
    exact ⟨by omega, e1, e3⟩

/-- **C23**: changing the order of a used object and resetting it gives a fresh object of the new order; changing the order to the order the
object has is a no-op. -/
theorem C23_set_order (ord : ℕ) (s1 : DirectFormI K) (s2 : DirectFormII K) (s3 : CascadedForm K) :
    (s1.setOrder ord).reset = DirectFormI.make ord ∧ (s2.setOrder ord).reset = DirectFormII.make ord ∧
    (s3.setOrder ord).reset = CascadedForm.make ord ∧
    (s1.fwState.length = s1.recState.length + 1 → s1.setOrder s1.order = s1) ∧ (s2.state ≠ [] → s2.setOrder s2.order = s2) ∧
    (s3.sections ≠ [] → s3.setOrder s3.order = s3) := by
  have z : ∀ (l : List K) (n : ℕ), (resizeZ l n).map (fun _ => (0 : K)) = resizeZ [] n := by
    intro l n
    simp only [resizeZ, List.map_append, List.map_take, List.map_const', List.map_replicate, List.take_nil, List.nil_append, List.length_nil,
      List.take_replicate, List.replicate_append_replicate]
    congr 1
    omega
  have w : ∀ l : List K, resizeZ l l.length = l := by intro l; simp [resizeZ]
  refine ⟨?_, ?_, ?_, fun h => ?_, fun h => ?_, fun h => ?_⟩
  · simp only [DirectFormI.setOrder, DirectFormI.reset, DirectFormI.make, z]
  · simp only [DirectFormII.setOrder, DirectFormII.reset, DirectFormII.make, z]
  · simp only [CascadedForm.setOrder, CascadedForm.reset, CascadedForm.make, List.map_append, List.map_take, List.map_const',
      List.map_replicate, List.take_replicate, List.replicate_append_replicate]
    congr 2
    omega
  · simp only [DirectFormI.setOrder, DirectFormI.order]
    rw [w, ← h, w]
  · have := List.length_pos_iff.2 h
    simp only [DirectFormII.setOrder, DirectFormII.order, if_pos h]
    rw [show s2.state.length - 1 + 1 = s2.state.length by omega, w]
  · have := List.length_pos_iff.2 h
    simp only [CascadedForm.setOrder, CascadedForm.order]
    have e : (1 + ((max 1 s3.sections.length - 1) * 2 + 1) / 2) = s3.sections.length := by omega
    rw [e]
    simp

example : iirStream (DirectFormI.feed ⟨[1, 2], [-1, (2 : ℚ)]⟩) [[1], [], [0, 3]] (DirectFormI.make 1) =
    DirectFormI.feed ⟨[1, 2], [-1, 2]⟩ [1, 0, 3] (DirectFormI.make 1) :=
  C23_chunks_directFormI _ _ (C23_fresh_accepts _ (by simp) _ (by simp [TransferFn.order, polyOrder])).1 _

end
end Verif
