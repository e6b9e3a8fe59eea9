import Verif.Lemmas.FirDesign

namespace Verif
set_option linter.unusedSimpArgs false

theorem hilbertKernel_get {j : ℕ} (hj : j < 32) : hilbertKernel[j]? = some (quadrature ((j : ℤ) - 15)) := by
  have h : ∀ j : Fin 32, hilbertKernel[j.1]? = some (if ((j.1 : ℤ) - 15) % 4 = 1 then 2 else if ((j.1 : ℤ) - 15) % 4 = 3 then -2 else 0) := by
    intro j
    fin_cases j <;> simp [hilbertKernel]
  exact h ⟨j, hj⟩

theorem quadrature_congr {a b : ℤ} (h : a % 4 = b % 4) : quadrature a = quadrature b := by
  unfold quadrature; rw [h]

theorem Span.sub_ok {s : Span} {o c : ℕ} (h : o + c ≤ s.size) : s.sub o c = .ok ⟨s.pos + o, c⟩ := by
  unfold Span.sub
  rw [cassert_true (by omega), Out.ok_bind, cassert_true h, Out.ok_bind, Out.pure_def]

theorem Span.subFrom_ok {s : Span} {o : ℕ} (h : o ≤ s.size) : s.subFrom o = .ok ⟨s.pos + o, s.size - o⟩ := by
  unfold Span.subFrom
  rw [cassert_true h, Out.ok_bind, Out.pure_def]

/-- state after the first `t` taps of the odd conversion -/
structure HDone (m0 m : List ℝ) (out : Span) (h : ℕ → ℝ) (n t : ℕ) : Prop where
  len : m.length = m0.length
  get : ∀ j, m[j]? = if out.pos ≤ j ∧ j < out.pos + t then some (h (j - out.pos) * quadrature (((j - out.pos : ℕ) : ℤ) - (n / 2 : ℕ)))
    else m0[j]?

theorem hilbert_step_odd (e : Exec) {mem m : List ℝ} {out hb : Span} {h : ℕ → ℝ} {t c q : ℕ}
    (hs : out.size = hb.size) (hm : out.Within mem) (hf : hb.Within mem) (hc : out.Compatible hb) (hr : Reads mem hb h)
    (hd : HDone (mem ++ hilbertKernel) m out h hb.size t) (ht : t + c ≤ hb.size) (hq : q + c ≤ 32)
    (hqm : ((q : ℤ) - 15) % 4 = ((t : ℤ) - (hb.size / 2 : ℕ)) % 4) :
    ∃ m', arithVV e.asserts e.vec e.W .mul m ⟨out.pos + t, c⟩ ⟨hb.pos + t, c⟩ ⟨mem.length + q, c⟩ = .ok m' ∧
      HDone (mem ++ hilbertKernel) m' out h hb.size (t + c) := by
  have hk : hilbertKernel.length = 32 := rfl
  have hl := hd.len
  rw [List.length_append, hk] at hl
  unfold Span.Within at hm hf
  obtain ⟨m', e1, hl', hw, hrest⟩ := C40_vector_vector e.asserts e.vec e.W .mul m ⟨out.pos + t, c⟩ ⟨hb.pos + t, c⟩ ⟨mem.length + q, c⟩
    rfl rfl (by simp only []; omega) (by simp only []; omega) (by simp only []; omega)
    (by simp only []; rcases hc with rfl | hc | hc <;> omega) (by simp only []; omega)
  simp only [] at hw hrest
  refine ⟨m', e1, by rw [hl', hd.len], fun j => ?_⟩
  by_cases hj : out.pos + t ≤ j ∧ j < out.pos + t + c
  · obtain ⟨i, rfl⟩ := Nat.exists_eq_add_of_le hj.1
    rw [if_pos (by omega), hw i (h (t + i)) (quadrature (((q + i : ℕ) : ℤ) - 15)) (by omega) ?_ ?_]
    · have : out.pos + t + i - out.pos = t + i := by omega
      rw [this]
      have : quadrature (((q + i : ℕ) : ℤ) - 15) = quadrature (((t + i : ℕ) : ℤ) - (hb.size / 2 : ℕ)) := by
        apply quadrature_congr
        push_cast
        omega
      rw [this]
      rfl
    · rw [hd.get, if_neg ?_, List.getElem?_append_left (by omega), show hb.pos + t + i = hb.pos + (t + i) by omega, hr _ (by omega)]
      rcases hc with rfl | hc | hc <;> omega
    · rw [hd.get, if_neg (by omega), List.getElem?_append_right (by omega), ← hilbertKernel_get (by omega)]
      congr 1
      omega
  · rw [hrest j (by omega), hd.get]
    by_cases h1 : out.pos ≤ j ∧ j < out.pos + t
    · rw [if_pos h1, if_pos (by omega)]
    · rw [if_neg h1, if_neg (by omega)]

theorem halfbandToHilbertOdd_writes (e : Exec) (mem : List ℝ) (out hb : Span) (hodd : hb.size % 2 = 1)
    (hs : out.size = hb.size) (hm : out.Within mem) (hf : hb.Within mem) (hc : out.Compatible hb) (h : ℕ → ℝ) (hr : Reads mem hb h) :
    ∃ m, halfbandToHilbertOdd e mem out hb = .ok m ∧
      Writes mem m out (fun i => h i * quadrature ((i : ℤ) - (hb.size / 2 : ℕ))) := by
  have h0 : HDone (mem ++ hilbertKernel) (mem ++ hilbertKernel) out h hb.size 0 := ⟨rfl, fun j => by rw [if_neg (by omega)]⟩
  have hfin : ∀ m, HDone (mem ++ hilbertKernel) m out h hb.size hb.size →
      Writes mem (m.take mem.length) out (fun i => h i * quadrature ((i : ℤ) - (hb.size / 2 : ℕ))) := by
    intro m hd
    unfold Span.Within at hm
    refine ⟨by rw [List.length_take, hd.len, List.length_append]; omega, fun i hi => ?_, fun j hj => ?_⟩
    · rw [List.getElem?_take, if_pos (by omega), hd.get, if_pos (by omega), Nat.add_sub_cancel_left]
    · rw [List.getElem?_take]
      split_ifs with hjl
      · rw [hd.get, if_neg (by omega), List.getElem?_append_left hjl]
      · rw [List.getElem?_eq_none (by omega)]
  unfold halfbandToHilbertOdd
  rw [cassert_true hodd, Out.ok_bind, cassert_true hs, Out.ok_bind]
  simp only [hilbertKernelSize]
  by_cases hn : hb.size ≤ 32 - 1
  · rw [if_pos hn]
    have hu : usub (32 / 2 - 1) (hb.size / 2) = 15 - hb.size / 2 := by rw [usub, if_pos (by omega)]
    obtain ⟨m, e1, hd⟩ := hilbert_step_odd e hs hm hf hc hr h0 (t := 0) (c := hb.size) (q := 15 - hb.size / 2) (by omega) (by omega)
      (by omega)
    refine ⟨m.take mem.length, ?_, hfin m (by simpa using hd)⟩
    unfold Span.sub
    rw [hu, cassert_true (by show _ ≤ 32; omega), Out.ok_bind, cassert_true (by show _ ≤ 32; omega), Out.ok_bind, Out.pure_def, Out.ok_bind]
    simp only [Nat.add_zero] at e1
    have : out = ⟨out.pos, hb.size⟩ := by rw [← hs]
    rw [this]
    have e2 : hb = ⟨hb.pos, hb.size⟩ := rfl
    rw [← e2] at e1
    rw [e1, Out.ok_bind, Out.pure_def]
  · rw [if_neg hn]
    obtain ⟨tap, htap⟩ : ∃ tap, tap = (hb.size / 2 - (32 / 2 - 1)) % 32 := ⟨_, rfl⟩
    rw [← htap]
    have htl : tap < 32 := by omega
    obtain ⟨m1, e1, hd1⟩ := hilbert_step_odd e hs hm hf hc hr h0 (t := 0) (c := tap) (q := 32 - tap) (by omega) (by omega)
      (by omega)
    simp only [Nat.add_zero, Nat.zero_add] at e1 hd1
    -- the blocks
    obtain ⟨B, hB⟩ : ∃ B, B = (hb.size - tap - 1) / 32 := ⟨_, rfl⟩
    have key := whileN_inv (cond := fun (s : List ℝ × Nat) => decide (s.2 + 32 < hb.size))
      (body := fun s => do
        let m ← arithVV e.asserts e.vec e.W .mul s.1 ⟨out.pos + s.2, 32⟩ ⟨hb.pos + s.2, 32⟩ ⟨mem.length, 32⟩
        pure (m, s.2 + 32))
      (fun k s => s.2 = tap + 32 * k ∧ HDone (mem ++ hilbertKernel) s.1 out h hb.size s.2) B
    replace key := key (by
      intro k s hk ⟨hs2, hd⟩
      refine ⟨by simp only [decide_eq_true_eq]; omega, ?_⟩
      obtain ⟨m', e', hd'⟩ := hilbert_step_odd e hs hm hf hc hr hd (c := 32) (q := 0) (by omega) (by omega) (by omega)
      simp only [Nat.add_zero] at e'
      refine ⟨(m', s.2 + 32), ?_, by simp only []; omega, hd'⟩
      rw [e', Out.ok_bind, Out.pure_def])
    replace key := key (by
      intro s ⟨hs2, _⟩
      simp only [decide_eq_false_iff_not]
      omega)
    obtain ⟨s, e2, hs2, hd2⟩ := key hb.size 0 (m1, tap) (by omega) (by omega) ⟨by simp, hd1⟩
    have hu : usub hb.size s.2 = hb.size - s.2 := by rw [usub, if_pos (by omega)]
    obtain ⟨m3, e3, hd3⟩ := hilbert_step_odd e hs hm hf hc hr hd2 (c := hb.size - s.2) (q := 0) (by omega) (by omega) (by omega)
    rw [show s.2 + (hb.size - s.2) = hb.size by omega] at hd3
    refine ⟨m3.take mem.length, ?_, hfin m3 hd3⟩
    unfold Span.subFrom Span.sub
    rw [cassert_true (by show _ ≤ 32; omega), Out.ok_bind, Out.pure_def, Out.ok_bind, show 32 - (32 - tap) = tap by omega, e1, Out.ok_bind, e2,
      Out.ok_bind, hu, cassert_true (by show _ ≤ 32; omega), Out.ok_bind, cassert_true (by show _ ≤ 32; omega), Out.ok_bind, Out.pure_def, Out.ok_bind, e3,
      Out.ok_bind, Out.pure_def]

/-! ### even lengths -/

theorem decimateInto_ok (m : List ℝ) (p P n c : ℕ) (hc : n = (c + 1) / 2) (hp : p + n ≤ P) (hP : P + c ≤ m.length) (x : ℕ → ℝ)
    (hx : ∀ i, i < c → m[P + i]? = some (x i)) :
    ∃ m', decimateInto m ⟨p, n⟩ ⟨P, c⟩ 2 = .ok m' ∧ m'.length = m.length ∧
      ∀ j, m'[j]? = if p ≤ j ∧ j < p + n then some (x (2 * (j - p))) else m[j]? := by
  have key := forN_inv
    (body := fun k mem => do
      let x ← rd mem ((P + k * 2 : Nat) : Int)
      wr mem ((p + k : Nat) : Int) x)
    (fun k (m' : List ℝ) => m'.length = m.length ∧ ∀ j, m'[j]? = if p ≤ j ∧ j < p + k then some (x (2 * (j - p))) else m[j]?) n m
    ⟨rfl, fun j => by rw [if_neg (by omega)]⟩
  replace key := key (by
    intro i s hi ⟨hl, hj⟩
    have hr1 : rd s ((P + i * 2 : ℕ) : ℤ) = .ok (x (i * 2)) := by
      apply rd_some
      rw [hj, if_neg (by omega), hx _ (by omega)]
    obtain ⟨m', ew, hl', hw'⟩ := wr_upd (mem := s) (p := p + i) (by omega) (x (i * 2))
    refine ⟨m', by rw [hr1, Out.ok_bind, ew], hl'.trans hl, fun j => ?_⟩
    rw [hw', hj]
    by_cases h1 : j = p + i
    · subst h1
      rw [if_pos rfl, if_pos (by omega), Nat.add_sub_cancel_left, mul_comm]
    · rw [if_neg h1]
      by_cases h2 : p ≤ j ∧ j < p + i
      · rw [if_pos h2, if_pos (by omega)]
      · rw [if_neg h2, if_neg (by omega)])
  obtain ⟨m', e1, hl, hj⟩ := key
  refine ⟨m', ?_, hl, hj⟩
  unfold decimateInto
  simp only []
  rw [if_neg (by decide), Out.pure_def, Out.ok_bind, cassert_true (by omega), Out.ok_bind, e1]

/-- state after the first `t` half-band taps of the even conversion -/
structure EDone (m0 m : List ℝ) (L : ℕ) (out : Span) (h : ℕ → ℝ) (n t : ℕ) : Prop where
  len : m.length = m0.length
  get : ∀ j, j < L → m[j]? = if out.pos ≤ j ∧ 2 * (j - out.pos) < t
    then some (h (2 * (j - out.pos)) * quadrature (((2 * (j - out.pos) : ℕ) : ℤ) - (n / 2 : ℕ))) else m0[j]?

theorem hilbert_step_even (e : Exec) {garbage mem m : List ℝ} {out hb : Span} {h : ℕ → ℝ} {t c q : ℕ} (hg : garbage.length = 32)
    (hs : 2 * out.size = hb.size + 1) (hm : out.Within mem) (hf : hb.Within mem)
    (hc : out.pos + out.size ≤ hb.pos ∨ hb.pos + hb.size ≤ out.pos) (hr : Reads mem hb h)
    (hd : EDone (mem ++ hilbertKernel ++ garbage) m (mem.length + 32) out h hb.size t) (ht : t + c ≤ hb.size) (hq : q + c ≤ 32)
    (hte : t % 2 = 0) (hqm : ((q : ℤ) - 15) % 4 = ((t : ℤ) - (hb.size / 2 : ℕ)) % 4) :
    ∃ m' m'', arithVV e.asserts e.vec e.W .mul m ⟨mem.length + 32, c⟩ ⟨hb.pos + t, c⟩ ⟨mem.length + q, c⟩ = .ok m' ∧
      decimateInto m' ⟨out.pos + (t + 1) / 2, (c + 1) / 2⟩ ⟨mem.length + 32, c⟩ 2 = .ok m'' ∧
      EDone (mem ++ hilbertKernel ++ garbage) m'' (mem.length + 32) out h hb.size (t + c) := by
  have hk : hilbertKernel.length = 32 := rfl
  have hl := hd.len
  rw [List.length_append, List.length_append, hk, hg] at hl
  unfold Span.Within at hm hf
  obtain ⟨m', e1, hl', hw, hrest⟩ := C40_vector_vector e.asserts e.vec e.W .mul m ⟨mem.length + 32, c⟩ ⟨hb.pos + t, c⟩
    ⟨mem.length + q, c⟩ rfl rfl (by simp only []; omega) (by simp only []; omega) (by simp only []; omega)
    (by simp only []; omega) (by simp only []; omega)
  simp only [] at hw hrest
  have hx : ∀ i, i < c → m'[mem.length + 32 + i]? = some (h (t + i) * quadrature (((t + i : ℕ) : ℤ) - (hb.size / 2 : ℕ))) := by
    intro i hi
    rw [hw i (h (t + i)) (quadrature (((q + i : ℕ) : ℤ) - 15)) hi ?_ ?_]
    · have : quadrature (((q + i : ℕ) : ℤ) - 15) = quadrature (((t + i : ℕ) : ℤ) - (hb.size / 2 : ℕ)) := by
        apply quadrature_congr
        push_cast
        omega
      rw [this]
      rfl
    · rw [hd.get _ (by omega), if_neg (by omega), List.append_assoc, List.getElem?_append_left (by omega),
        show hb.pos + t + i = hb.pos + (t + i) by omega, hr _ (by omega)]
    · rw [hd.get _ (by omega), if_neg (by omega), List.append_assoc, List.getElem?_append_right (by omega),
        List.getElem?_append_left (by omega), ← hilbertKernel_get (by omega)]
      congr 1
      omega
  obtain ⟨m'', e2, hl2, hj⟩ := decimateInto_ok m' (out.pos + (t + 1) / 2) (mem.length + 32) ((c + 1) / 2) c rfl (by omega) (by omega) _ hx
  refine ⟨m', m'', e1, e2, by rw [hl2, hl', hd.len], fun j hjl => ?_⟩
  rw [hj]
  by_cases h1 : out.pos + (t + 1) / 2 ≤ j ∧ j < out.pos + (t + 1) / 2 + (c + 1) / 2
  · rw [if_pos h1, if_pos (by omega)]
    have : t + 2 * (j - (out.pos + (t + 1) / 2)) = 2 * (j - out.pos) := by omega
    rw [this]
  · rw [if_neg h1, hrest j (by omega), hd.get j hjl]
    by_cases h2 : out.pos ≤ j ∧ 2 * (j - out.pos) < t
    · rw [if_pos h2, if_pos (by omega)]
    · rw [if_neg h2, if_neg (by omega)]

theorem halfbandToHilbertEven_writes (e : Exec) (garbage mem : List ℝ) (hg : garbage.length = 32) (out hb : Span)
    (heven : out.size % 2 = 0) (hpos : 0 < out.size)
    (hs : out.size * 2 - 1 = hb.size) (hm : out.Within mem) (hf : hb.Within mem)
    (hc : out.pos + out.size ≤ hb.pos ∨ hb.pos + hb.size ≤ out.pos) (h : ℕ → ℝ) (hr : Reads mem hb h) :
    ∃ m, halfbandToHilbertEven e garbage mem out hb = .ok m ∧
      Writes mem m out (fun i => h (2 * i) * quadrature (((2 * i : ℕ) : ℤ) - (hb.size / 2 : ℕ))) := by
  have hs' : 2 * out.size = hb.size + 1 := by omega
  have h0 : EDone (mem ++ hilbertKernel ++ garbage) (mem ++ hilbertKernel ++ garbage) (mem.length + 32) out h hb.size 0 :=
    ⟨rfl, fun j _ => by rw [if_neg (by omega)]⟩
  have hfin : ∀ m, EDone (mem ++ hilbertKernel ++ garbage) m (mem.length + 32) out h hb.size hb.size →
      Writes mem (m.take mem.length) out (fun i => h (2 * i) * quadrature (((2 * i : ℕ) : ℤ) - (hb.size / 2 : ℕ))) := by
    intro m hd
    unfold Span.Within at hm
    refine ⟨by rw [List.length_take, hd.len, List.length_append, List.length_append]; omega, fun i hi => ?_, fun j hj => ?_⟩
    · rw [List.getElem?_take, if_pos (by omega), hd.get _ (by omega), if_pos (by omega), Nat.add_sub_cancel_left]
    · rw [List.getElem?_take]
      split_ifs with hjl
      · rw [hd.get _ (by omega), if_neg (by omega), List.append_assoc, List.getElem?_append_left hjl]
      · rw [List.getElem?_eq_none (by omega)]
  unfold halfbandToHilbertEven
  have hu0 : usub (out.size * 2) 1 = hb.size := by rw [usub, if_pos (by omega)]; omega
  rw [cassert_true heven, Out.ok_bind, cassert_true hu0, Out.ok_bind]
  simp only [hilbertKernelSize]
  by_cases hn : hb.size ≤ 32 - 1
  · rw [if_pos hn]
    have hu : usub (32 / 2 - 1) (hb.size / 2) = 15 - hb.size / 2 := by rw [usub, if_pos (by omega)]
    obtain ⟨m1, m2, e1, e2, hd⟩ := hilbert_step_even e hg hs' hm hf hc hr h0 (t := 0) (c := hb.size) (q := 15 - hb.size / 2)
      (by omega) (by omega) (by omega) (by omega)
    refine ⟨m2.take mem.length, ?_, hfin m2 (by simpa using hd)⟩
    simp only [Nat.add_zero] at e1 e2
    rw [hu, Span.sub_ok (by show _ ≤ 32; omega), Out.ok_bind, Span.sub_ok (by show _ ≤ 32; omega), Out.ok_bind]
    simp only [Nat.add_zero]
    have e3 : out = ⟨out.pos + (0 + 1) / 2, (hb.size + 1) / 2⟩ := by rw [← hs', Nat.mul_div_cancel_left _ (by decide)]; rfl
    rw [e3]
    have e4 : hb = ⟨hb.pos, hb.size⟩ := rfl
    rw [← e4] at e1
    rw [e1, Out.ok_bind, e2, Out.ok_bind, Out.pure_def]
  · rw [if_neg hn]
    obtain ⟨tap, htap⟩ : ∃ tap, tap = (hb.size / 2 - (32 / 2 - 1)) % 32 := ⟨_, rfl⟩
    rw [← htap]
    have htl : tap < 32 := by omega
    have hte : tap % 2 = 0 := by omega
    obtain ⟨m1, m2, e1, e1', hd1⟩ := hilbert_step_even e hg hs' hm hf hc hr h0 (t := 0) (c := tap) (q := 32 - tap) (by omega)
      (by omega) (by omega) (by omega)
    simp only [Nat.add_zero, Nat.zero_add] at e1 e1' hd1
    obtain ⟨B, hB⟩ : ∃ B, B = (hb.size - tap - 1) / 32 := ⟨_, rfl⟩
    have key := whileN_inv (cond := fun (s : List ℝ × Nat) => decide (s.2 + 32 < hb.size))
      (body := fun s => do
        let m ← arithVV e.asserts e.vec e.W .mul s.1 ⟨mem.length + 32, 32⟩ ⟨hb.pos + s.2, 32⟩ ⟨mem.length, 32⟩
        let m ← decimateInto m ⟨out.pos + (s.2 + 1) / 2, (32 + 1) / 2⟩ ⟨mem.length + 32, 32⟩ 2
        pure (m, s.2 + 32))
      (fun k s => s.2 = tap + 32 * k ∧ EDone (mem ++ hilbertKernel ++ garbage) s.1 (mem.length + 32) out h hb.size s.2) B
    replace key := key (by
      intro k s hk ⟨hs2, hd⟩
      refine ⟨by simp only [decide_eq_true_eq]; omega, ?_⟩
      obtain ⟨m', m'', e', e'', hd'⟩ := hilbert_step_even e hg hs' hm hf hc hr hd (c := 32) (q := 0) (by omega) (by omega)
        (by omega) (by omega)
      simp only [Nat.add_zero] at e'
      refine ⟨(m'', s.2 + 32), ?_, by simp only []; omega, hd'⟩
      rw [e', Out.ok_bind, e'', Out.ok_bind, Out.pure_def])
    replace key := key (by
      intro s ⟨hs2, _⟩
      simp only [decide_eq_false_iff_not]
      omega)
    obtain ⟨s, e2, hs2, hd2⟩ := key hb.size 0 (m2, tap) (by omega) (by omega) ⟨by simp, hd1⟩
    have hu : usub hb.size s.2 = hb.size - s.2 := by rw [usub, if_pos (by omega)]
    obtain ⟨m3, m4, e3, e4, hd3⟩ := hilbert_step_even e hg hs' hm hf hc hr hd2 (c := hb.size - s.2) (q := 0) (by omega) (by omega)
      (by omega) (by omega)
    rw [show s.2 + (hb.size - s.2) = hb.size by omega] at hd3
    refine ⟨m4.take mem.length, ?_, hfin m4 hd3⟩
    replace e1' : decimateInto m1 ⟨out.pos, (tap + 1) / 2⟩ ⟨mem.length + 32, tap⟩ 2 = .ok m2 := e1'
    rw [Span.sub_ok (by show _ ≤ 32; omega), Out.ok_bind, Span.subFrom_ok (by show _ ≤ 32; omega), Out.ok_bind]
    simp only [Nat.add_zero, show 32 - (32 - tap) = tap by omega]
    rw [e1, Out.ok_bind, e1', Out.ok_bind, e2, Out.ok_bind, hu, Span.sub_ok (by show _ ≤ 32; omega), Out.ok_bind,
      Span.sub_ok (by show _ ≤ 32; omega), Out.ok_bind, e3, Out.ok_bind, e4, Out.ok_bind, Out.pure_def]

end Verif
