import Verif.Model.Polynomials
import Verif.Spec.Roots
import Verif.Lemmas.Convolution
import Mathlib.Algebra.Polynomial.Basic
import Mathlib.Algebra.Polynomial.AlgebraMap
import Mathlib.Algebra.Polynomial.Degree.Lemmas
import Mathlib.Algebra.Polynomial.Degree.SmallDegree

set_option linter.unusedSimpArgs false
set_option linter.unusedSectionVars false

namespace Verif

/-! ### the layout of the buffer -/

/-- The buffer holds exactly the roots that the views cover. -/
def FactoredPoly.WF (p : FactoredPoly) : Prop := p.mem.length = p.numReal + 2 * p.numPairs

theorem flatC_length (l : List ℂ) : (flatC l).length = 2 * l.length := by
  induction l with
  | nil => rfl
  | cons a l ih => simp only [flatC, List.flatMap_cons, List.length_append, List.length_cons, List.length_nil] at *; omega

theorem sig_flatC_replicate (k : ℕ) (z : ℂ) : ∀ i, i < k →
    sig (flatC (List.replicate k z)) (2 * i) = z.re ∧ sig (flatC (List.replicate k z)) (2 * i + 1) = z.im := by
  induction k with
  | zero => intro i hi; omega
  | succ k ih =>
    intro i hi
    have e : flatC (List.replicate (k + 1) z) = z.re :: z.im :: flatC (List.replicate k z) := by
      simp [flatC, List.replicate_succ]
    rw [e]
    cases i with
    | zero => simp [sig]
    | succ i =>
      obtain ⟨h1, h2⟩ := ih i (by omega)
      constructor
      · rw [← h1]; simp [sig, show 2 * (i + 1) = 2 * i + 1 + 1 by ring]
      · rw [← h2]; simp [sig, show 2 * (i + 1) + 1 = (2 * i + 1) + 1 + 1 by ring]

theorem sig_take {R : Type} [Zero R] (l : List R) (n i : ℕ) (h : i < n) : sig (l.take n) i = sig l i := by
  simp [sig, List.getElem?_take, h]

theorem sig_resizeZ (l : List ℝ) (n i : ℕ) (h : i < n) : sig (resizeZ l n) i = sig l i := by
  unfold resizeZ sig
  simp only [List.getD_eq_getElem?_getD, List.getElem?_append, List.getElem?_take, List.length_take]
  split
  · rename_i hh; simp [h]
  · rename_i hh
    have : l.length ≤ i := by omega
    rw [List.getElem?_eq_none this, List.getElem?_replicate]
    split <;> simp

theorem resizeZ_length (l : List ℝ) (n : ℕ) : (resizeZ l n).length = n := by
  simp [resizeZ]; omega

theorem realRoots_length {p : FactoredPoly} (h : p.WF) : p.realRoots.length = p.numReal := by
  unfold FactoredPoly.WF at h
  simp [FactoredPoly.realRoots]; omega

theorem complexPairs_length (p : FactoredPoly) : p.complexPairs.length = p.numPairs := by
  simp [FactoredPoly.complexPairs]

theorem sig_complexPairs (p : FactoredPoly) {i : ℕ} (h : i < p.numPairs) :
    sig p.complexPairs i = ⟨sig p.mem (p.numReal + 2 * i), sig p.mem (p.numReal + 2 * i + 1)⟩ := by
  rw [sig_of_lt (by rw [complexPairs_length]; exact h)]
  simp [FactoredPoly.complexPairs]

theorem sig_realRoots (p : FactoredPoly) {i : ℕ} (h : i < p.numReal) : sig p.realRoots i = sig p.mem i := by
  rw [FactoredPoly.realRoots, sig_take _ _ _ h]

/-- Relocation in a buffer. -/
theorem moveRange_sig {mem : List ℝ} {src n dst : ℕ} (h1 : src + n ≤ mem.length) (h2 : dst + n ≤ mem.length) :
    ∃ mem', moveRange mem src n dst = .ok mem' ∧ mem'.length = mem.length ∧
      ∀ j, sig mem' j = if dst ≤ j ∧ j < dst + n then sig mem (src + (j - dst)) else sig mem j := by
  unfold moveRange
  rw [loadV_reg h1, Out.ok_bind]
  obtain ⟨mem', e1, e2, e3⟩ := storeV_sig (mem := mem) (v := reg n fun i => sig mem (src + i)) (p := dst)
    (by rw [reg_length]; exact h2)
  refine ⟨mem', e1, e2, fun j => ?_⟩
  rw [e3, reg_length]
  split
  · rename_i hj
    rw [sig_reg, if_pos (by omega)]
  · rfl

/-- What a change of layout is to achieve. -/
structure Relaid (p p' : FactoredPoly) (n m : ℕ) (rv : ℝ) (cv : ℂ) : Prop where
  wf : p'.WF
  nr : p'.numReal = n
  np : p'.numPairs = m
  reals : p'.realRoots = p.realRoots.take n ++ List.replicate (n - p.numReal) rv
  pairs : p'.complexPairs = p.complexPairs.take m ++ List.replicate (m - p.numPairs) cv

theorem relaid_of_sig {p : FactoredPoly} (hp : p.WF) {mem : List ℝ} {n m : ℕ} {rv : ℝ} {cv : ℂ}
    (hl : mem.length = n + 2 * m)
    (hr : ∀ i, i < n → sig mem i = if i < p.numReal then sig p.mem i else rv)
    (hc : ∀ i, i < m → sig mem (n + 2 * i) = (if i < p.numPairs then sig p.mem (p.numReal + 2 * i) else cv.re) ∧
      sig mem (n + 2 * i + 1) = (if i < p.numPairs then sig p.mem (p.numReal + 2 * i + 1) else cv.im)) :
    Relaid p ⟨mem, n, m⟩ n m rv cv := by
  have hwf : (⟨mem, n, m⟩ : FactoredPoly).WF := hl
  refine ⟨hwf, rfl, rfl, ?_, ?_⟩
  · apply list_ext_sig
    · rw [realRoots_length hwf]; simp [realRoots_length hp]; omega
    · intro i hi
      rw [realRoots_length hwf] at hi
      simp only at hi
      rw [sig_realRoots _ hi, hr i hi]
      unfold sig
      simp only [List.getD_eq_getElem?_getD, List.getElem?_append, List.getElem?_take, List.length_take,
        realRoots_length hp, List.getElem?_replicate]
      by_cases hc : i < p.numReal
      · rw [if_pos hc, if_pos (by omega), if_pos hi]
        have := sig_realRoots p hc
        unfold sig at this
        simpa using this.symm
      · rw [if_neg hc, if_neg (by omega), if_pos (by omega)]
        rfl
  · apply list_ext_sig
    · rw [complexPairs_length]; simp [complexPairs_length]; omega
    · intro i hi
      rw [complexPairs_length] at hi
      simp only at hi
      rw [sig_complexPairs _ hi]
      simp only
      rw [(hc i hi).1, (hc i hi).2]
      unfold sig
      simp only [List.getD_eq_getElem?_getD, List.getElem?_append, List.getElem?_take, List.length_take,
        complexPairs_length, List.getElem?_replicate]
      by_cases hc : i < p.numPairs
      · rw [if_pos hc, if_pos hc, if_pos (by omega), if_pos hi]
        have := sig_complexPairs p hc
        unfold sig at this
        simpa using this.symm
      · rw [if_neg hc, if_neg hc, if_neg (by omega), if_pos (by omega)]
        rfl

/-- The filling steps shared by `resize` and `regroup`. -/
theorem fill_sig {mem : List ℝ} {n m cr cp : ℕ} {rv : ℝ} {cv : ℂ} (hl : mem.length = n + 2 * m) :
    ∃ mem', (do
      let mem ← (if cr < n then storeV mem cr (List.replicate (n - cr) rv) else pure mem)
      let mem ← (if cp < m then storeV mem (n + 2 * cp) (flatC (List.replicate (m - cp) cv)) else pure mem)
      pure (⟨mem, n, m⟩ : FactoredPoly)) = .ok ⟨mem', n, m⟩ ∧ mem'.length = mem.length ∧
      (∀ i, i < n → sig mem' i = if i < cr then sig mem i else rv) ∧
      (∀ i, i < m → sig mem' (n + 2 * i) = (if i < cp then sig mem (n + 2 * i) else cv.re) ∧
        sig mem' (n + 2 * i + 1) = (if i < cp then sig mem (n + 2 * i + 1) else cv.im)) := by
  have s1 : ∃ m1, (if cr < n then storeV mem cr (List.replicate (n - cr) rv) else pure mem) = .ok m1 ∧
      m1.length = mem.length ∧ ∀ j, sig m1 j = if cr ≤ j ∧ j < n then rv else sig mem j := by
    split
    · rename_i h
      obtain ⟨m1, e1, e2, e3⟩ := storeV_sig (mem := mem) (v := List.replicate (n - cr) rv) (p := cr)
        (by simp; omega)
      refine ⟨m1, e1, e2, fun j => ?_⟩
      rw [e3]
      simp only [List.length_replicate]
      by_cases hj : cr ≤ j ∧ j < n
      · rw [if_pos (by omega), if_pos hj]
        simp [sig, List.getElem?_replicate, show j - cr < n - cr by omega]
      · rw [if_neg (by omega), if_neg hj]
    · exact ⟨mem, rfl, rfl, fun j => by rw [if_neg (by omega)]⟩
  obtain ⟨m1, a1, a2, a3⟩ := s1
  have s2 : ∃ m2, (if cp < m then storeV m1 (n + 2 * cp) (flatC (List.replicate (m - cp) cv)) else pure m1) = .ok m2 ∧
      m2.length = mem.length ∧ ∀ j, sig m2 j = if n + 2 * cp ≤ j ∧ j < n + 2 * m then
        sig (flatC (List.replicate (m - cp) cv)) (j - (n + 2 * cp)) else sig m1 j := by
    split
    · rename_i h
      obtain ⟨m2, e1, e2, e3⟩ := storeV_sig (mem := m1) (v := flatC (List.replicate (m - cp) cv))
        (p := n + 2 * cp) (by rw [flatC_length]; simp; omega)
      refine ⟨m2, e1, by omega, fun j => ?_⟩
      rw [e3, flatC_length]
      simp only [List.length_replicate]
      by_cases hj : n + 2 * cp ≤ j ∧ j < n + 2 * m
      · rw [if_pos (by omega), if_pos hj]
      · rw [if_neg (by omega), if_neg hj]
    · exact ⟨m1, rfl, a2, fun j => by rw [if_neg (by omega)]⟩
  obtain ⟨m2, b1, b2, b3⟩ := s2
  refine ⟨m2, by rw [a1, Out.ok_bind, b1, Out.ok_bind, Out.pure_def], b2, ?_, ?_⟩
  · intro i hi
    rw [b3, if_neg (by omega), a3]
    by_cases h : i < cr
    · rw [if_neg (by omega), if_pos h]
    · rw [if_pos (by omega), if_neg h]
  · intro i hi
    rw [b3, b3]
    by_cases h : i < cp
    · simp only [if_pos h]
      rw [if_neg (by omega), if_neg (by omega), a3, a3, if_neg (by omega), if_neg (by omega)]
      exact ⟨rfl, rfl⟩
    · simp only [if_neg h]
      rw [if_pos (by omega), if_pos (by omega)]
      obtain ⟨h1, h2⟩ := sig_flatC_replicate (m - cp) cv (i - cp) (by omega)
      rw [show n + 2 * i - (n + 2 * cp) = 2 * (i - cp) by omega,
        show n + 2 * i + 1 - (n + 2 * cp) = 2 * (i - cp) + 1 by omega]
      exact ⟨h1, h2⟩

/-- `resize` does its job when the number of real roots does not grow or was zero. -/
theorem resize_relaid {p : FactoredPoly} (hp : p.WF) (n m : ℕ) (rv : ℝ) (cv : ℂ)
    (h : n ≤ p.numReal ∨ p.numReal = 0) :
    ∃ p', p.resize n m rv cv = .ok p' ∧ Relaid p p' n m rv cv := by
  unfold FactoredPoly.WF at hp
  unfold FactoredPoly.resize
  have s1 : ∃ m1, (if n < p.numReal then moveRange p.mem p.numReal (p.mem.length - p.numReal) n else pure p.mem) = .ok m1 ∧
      m1.length = p.mem.length ∧ ∀ j, sig m1 j = if n < p.numReal ∧ n ≤ j ∧ j < n + 2 * p.numPairs then
        sig p.mem (p.numReal + (j - n)) else sig p.mem j := by
    split
    · rename_i hlt
      obtain ⟨m1, e1, e2, e3⟩ := moveRange_sig (mem := p.mem) (src := p.numReal) (n := p.mem.length - p.numReal)
        (dst := n) (by omega) (by omega)
      refine ⟨m1, e1, e2, fun j => ?_⟩
      rw [e3]
      by_cases hj : n ≤ j ∧ j < n + 2 * p.numPairs
      · rw [if_pos (by omega), if_pos ⟨hlt, hj⟩]
      · rw [if_neg (by omega), if_neg (by tauto)]
    · rename_i hlt
      exact ⟨p.mem, rfl, rfl, fun j => by rw [if_neg (by tauto)]⟩
  obtain ⟨m1, a1, a2, a3⟩ := s1
  have s2 : ∃ m2, (if p.numReal < n then
        moveBackward (resizeZ m1 (n + 2 * m)) p.numReal (n + 2 * m - n) (resizeZ m1 (n + 2 * m)).length
      else pure (resizeZ m1 (n + 2 * m))) = .ok m2 ∧ m2.length = n + 2 * m ∧
      (∀ j, j < n → j < p.numReal → sig m2 j = sig p.mem j) ∧
      (∀ j, j < 2 * p.numPairs → j < 2 * m → sig m2 (n + j) = sig p.mem (p.numReal + j)) := by
    by_cases hlt : p.numReal < n
    · have h0 : p.numReal = 0 := by omega
      rw [if_pos hlt, moveBackward, if_pos (by rw [resizeZ_length]; omega)]
      rw [resizeZ_length, h0]
      obtain ⟨m2, e1, e2, e3⟩ := moveRange_sig (mem := resizeZ m1 (n + 2 * m)) (src := 0)
        (n := n + 2 * m - n - 0) (dst := n + 2 * m - (n + 2 * m - n - 0))
        (by rw [resizeZ_length]; omega) (by rw [resizeZ_length]; omega)
      refine ⟨m2, e1, by rw [e2, resizeZ_length], by omega, fun j hj hj' => ?_⟩
      rw [e3, if_pos (by omega), sig_resizeZ _ _ _ (by omega), a3, if_neg (by omega)]
      congr 1
      omega
    · rw [if_neg hlt]
      refine ⟨_, rfl, resizeZ_length _ _, fun j hj hj' => ?_, fun j hj hj' => ?_⟩
      · rw [sig_resizeZ _ _ _ (by omega), a3, if_neg (by omega)]
      · rw [sig_resizeZ _ _ _ (by omega), a3]
        by_cases hh : n < p.numReal
        · rw [if_pos (by omega)]; congr 1; omega
        · rw [if_neg (by omega)]; congr 1; omega
  obtain ⟨m2, b1, b2, b3, b4⟩ := s2
  obtain ⟨m3, c1, c2, c3, c4⟩ := fill_sig (mem := m2) (n := n) (m := m) (cr := p.numReal) (cp := p.numPairs)
    (rv := rv) (cv := cv) b2
  refine ⟨⟨m3, n, m⟩, ?_, relaid_of_sig hp (by rw [c2, b2]) ?_ ?_⟩
  · simp only
    rw [a1, Out.ok_bind, b1, Out.ok_bind]
    exact c1
  · intro i hi
    rw [c3 i hi]
    by_cases hh : i < p.numReal
    · rw [if_pos hh, if_pos hh, b3 i hi hh]
    · rw [if_neg hh, if_neg hh]
  · intro i hi
    rw [(c4 i hi).1, (c4 i hi).2]
    by_cases hh : i < p.numPairs
    · simp only [if_pos hh]
      rw [add_assoc, b4 _ (by omega) (by omega), add_assoc, b4 _ (by omega) (by omega)]
      exact ⟨rfl, rfl⟩
    · simp only [if_neg hh, and_self]

/-- `regroup` always does its job. -/
theorem regroup_relaid {p : FactoredPoly} (hp : p.WF) (n : ℕ) (rv : ℝ) (cv : ℂ)
    (h1 : n % 2 = p.numRoots % 2) (h2 : n ≤ p.numRoots) :
    ∃ p', p.regroup n rv cv = .ok p' ∧ Relaid p p' n ((p.numRoots - n) / 2) rv cv := by
  unfold FactoredPoly.WF at hp
  have hR : p.numRoots = p.numReal + 2 * p.numPairs := rfl
  unfold FactoredPoly.regroup
  rw [require_true h1, Out.ok_bind, require_true h2, Out.ok_bind]
  obtain ⟨m, hm⟩ : ∃ m, m = (p.numRoots - n) / 2 := ⟨_, rfl⟩
  rw [← hm]
  have hnm : n + 2 * m = p.numReal + 2 * p.numPairs := by omega
  have s1 : ∃ m1, (if n < p.numReal then moveRange p.mem p.numReal (p.mem.length - p.numReal) n else pure p.mem) = .ok m1 ∧
      m1.length = p.mem.length ∧ ∀ j, sig m1 j = if n < p.numReal ∧ n ≤ j ∧ j < n + 2 * p.numPairs then
        sig p.mem (p.numReal + (j - n)) else sig p.mem j := by
    split
    · rename_i hlt
      obtain ⟨m1, e1, e2, e3⟩ := moveRange_sig (mem := p.mem) (src := p.numReal) (n := p.mem.length - p.numReal)
        (dst := n) (by omega) (by omega)
      refine ⟨m1, e1, e2, fun j => ?_⟩
      rw [e3]
      by_cases hj : n ≤ j ∧ j < n + 2 * p.numPairs
      · rw [if_pos (by omega), if_pos ⟨hlt, hj⟩]
      · rw [if_neg (by omega), if_neg (by tauto)]
    · rename_i hlt
      exact ⟨p.mem, rfl, rfl, fun j => by rw [if_neg (by tauto)]⟩
  obtain ⟨m1, a1, a2, a3⟩ := s1
  have s2 : ∃ m2, (if p.numReal < n then
        moveBackward m1 p.numReal (m1.length - (n - p.numReal)) m1.length
      else pure m1) = .ok m2 ∧ m2.length = n + 2 * m ∧
      (∀ j, j < n → j < p.numReal → sig m2 j = sig p.mem j) ∧
      (∀ j, j < 2 * p.numPairs → j < 2 * m → sig m2 (n + j) = sig p.mem (p.numReal + j)) := by
    by_cases hlt : p.numReal < n
    · rw [if_pos hlt, moveBackward, if_pos (by omega)]
      obtain ⟨m2, e1, e2, e3⟩ := moveRange_sig (mem := m1) (src := p.numReal)
        (n := m1.length - (n - p.numReal) - p.numReal)
        (dst := m1.length - (m1.length - (n - p.numReal) - p.numReal)) (by omega) (by omega)
      refine ⟨m2, e1, by omega, fun j hj hj' => ?_, fun j hj hj' => ?_⟩
      · rw [e3, if_neg (by omega), a3, if_neg (by omega)]
      · rw [e3, if_pos (by omega), a3, if_neg (by omega)]
        congr 1
        omega
    · rw [if_neg hlt]
      refine ⟨_, rfl, by omega, fun j hj hj' => ?_, fun j hj hj' => ?_⟩
      · rw [a3, if_neg (by omega)]
      · rw [a3]
        by_cases hh : n < p.numReal
        · rw [if_pos (by omega)]; congr 1; omega
        · rw [if_neg (by omega)]; congr 1; omega
  obtain ⟨m2, b1, b2, b3, b4⟩ := s2
  obtain ⟨m3, c1, c2, c3, c4⟩ := fill_sig (mem := m2) (n := n) (m := m) (cr := p.numReal) (cp := p.numPairs)
    (rv := rv) (cv := cv) b2
  refine ⟨⟨m3, n, m⟩, ?_, relaid_of_sig hp (by rw [c2, b2]) ?_ ?_⟩
  · simp only [← hm]
    rw [a1, Out.ok_bind, b1, Out.ok_bind]
    exact c1
  · intro i hi
    rw [c3 i hi]
    by_cases hh : i < p.numReal
    · rw [if_pos hh, if_pos hh, b3 i hi hh]
    · rw [if_neg hh, if_neg hh]
  · intro i hi
    rw [(c4 i hi).1, (c4 i hi).2]
    by_cases hh : i < p.numPairs
    · simp only [if_pos hh]
      rw [add_assoc, b4 _ (by omega) (by omega), add_assoc, b4 _ (by omega) (by omega)]
      exact ⟨rfl, rfl⟩
    · simp only [if_neg hh, and_self]

/-! ### writing roots through iterators -/

/-- `l` with the elements from `i` on replaced by `v`. -/
def overwrite {α : Type} (l : List α) (i : ℕ) (v : List α) : List α := l.take i ++ v ++ l.drop (i + v.length)

theorem overwrite_nil {α : Type} (l : List α) (i : ℕ) : overwrite l i [] = l := by simp [overwrite]

theorem overwrite_cons {α : Type} (l : List α) (i : ℕ) (a : α) (v : List α) (h : i < l.length) :
    overwrite (l.set i a) (i + 1) v = overwrite l i (a :: v) := by
  unfold overwrite
  rw [List.take_set, List.drop_set, if_pos (by omega)]
  rw [List.take_add_one, List.set_append, List.length_take, if_neg (by omega)]
  rw [List.getElem?_eq_getElem h]
  simp [show min i l.length = i by omega, add_comm, add_left_comm]

theorem overwrite_all {α : Type} (l v : List α) (h : l.length = v.length) : overwrite l 0 v = v := by
  simp [overwrite, ← h]

theorem overwrite_overwrite {α : Type} (l : List α) (i : ℕ) (v w : List α) (h : i + v.length ≤ l.length) :
    overwrite (overwrite l i v) (i + v.length) w = overwrite l i (v ++ w) := by
  unfold overwrite
  rw [List.take_append_of_le_length (by simp; omega), List.take_of_length_le (by simp), List.drop_append,
    List.drop_eq_nil_of_le (by simp; omega), List.drop_drop]
  simp only [List.append_assoc, List.length_append, List.length_take, List.nil_append]
  congr 4
  omega

theorem setReal_spec {p : FactoredPoly} (hp : p.WF) {i : ℕ} (h : i < p.numReal) (r : ℝ) :
    ∃ p', p.setReal i r = .ok p' ∧ p'.WF ∧ p'.numReal = p.numReal ∧ p'.numPairs = p.numPairs ∧
      p'.realRoots = p.realRoots.set i r ∧ p'.complexPairs = p.complexPairs := by
  have hl : i < p.mem.length := by unfold FactoredPoly.WF at hp; omega
  refine ⟨{ p with mem := p.mem.set i r }, ?_, ?_, rfl, rfl, ?_, ?_⟩
  · rw [FactoredPoly.setReal, if_pos h, wr_eq (by omega) (by omega)]; simp
  · simpa [FactoredPoly.WF] using hp
  · simp [FactoredPoly.realRoots, List.take_set]
  · simp only [FactoredPoly.complexPairs]
    apply List.map_congr_left
    intro j hj
    rw [sig_set _ _ _ _ hl, sig_set _ _ _ _ hl, if_neg (by omega), if_neg (by omega)]

theorem setPair_spec {p : FactoredPoly} (hp : p.WF) {i : ℕ} (h : i < p.numPairs) (z : ℂ) :
    ∃ p', p.setPair i z = .ok p' ∧ p'.WF ∧ p'.numReal = p.numReal ∧ p'.numPairs = p.numPairs ∧
      p'.realRoots = p.realRoots ∧ p'.complexPairs = p.complexPairs.set i z := by
  have hp' := hp
  unfold FactoredPoly.WF at hp
  have e1 : wr p.mem (p.numReal + 2 * i : ℕ) z.re = .ok (p.mem.set (p.numReal + 2 * i) z.re) := by
    rw [wr_eq (by omega) (by omega)]; rfl
  have e2 : wr (p.mem.set (p.numReal + 2 * i) z.re) (p.numReal + 2 * i + 1 : ℕ) z.im =
      .ok ((p.mem.set (p.numReal + 2 * i) z.re).set (p.numReal + 2 * i + 1) z.im) := by
    rw [wr_eq (by omega) (by simp; omega)]; rfl
  refine ⟨{ p with mem := (p.mem.set (p.numReal + 2 * i) z.re).set (p.numReal + 2 * i + 1) z.im }, ?_, ?_, rfl, rfl, ?_, ?_⟩
  · rw [FactoredPoly.setPair, if_pos h, e1, Out.ok_bind, e2]; rfl
  · simpa [FactoredPoly.WF] using hp
  · simp only [FactoredPoly.realRoots]
    rw [List.take_set_of_le (by omega), List.take_set_of_le (by omega)]
  · apply list_ext_sig
    · simp [complexPairs_length]
    · intro j hj
      rw [complexPairs_length] at hj
      simp only at hj
      rw [sig_complexPairs _ (by exact hj), sig_set p.complexPairs _ _ _ (by rw [complexPairs_length]; exact h)]
      simp only
      have g1 : p.numReal + 2 * i < p.mem.length := by omega
      have g2 : p.numReal + 2 * i + 1 < (p.mem.set (p.numReal + 2 * i) z.re).length := by
        rw [List.length_set]; omega
      rw [sig_set _ _ _ _ g2, sig_set _ _ _ _ g2, sig_set _ _ _ _ g1, sig_set _ _ _ _ g1]
      by_cases hij : j = i
      · subst hij; simp
      · rw [if_neg (by omega), if_neg (by omega), if_neg (by omega), if_neg (by omega), if_neg hij,
          sig_complexPairs _ hj]

/-! ### the constructor from roots -/

section
open Classical

noncomputable def realPart (zs : List ℂ) : List ℝ := (zs.filter fun z => decide (z.im = 0)).map Complex.re
noncomputable def upperPart (zs : List ℂ) : List ℂ := zs.filter fun z => decide (0 < z.im)

theorem copyReals_spec : ∀ (zs : List ℂ) (i : ℕ) (p : FactoredPoly), p.WF →
    i + (realPart zs).length ≤ p.numReal →
    ∃ p', copyReals zs i p = .ok p' ∧ p'.WF ∧ p'.numReal = p.numReal ∧ p'.numPairs = p.numPairs ∧
      p'.realRoots = overwrite p.realRoots i (realPart zs) ∧ p'.complexPairs = p.complexPairs
  | [], i, p, hp, _ => ⟨p, rfl, hp, rfl, rfl, by simp [realPart, overwrite_nil], rfl⟩
  | z :: zs, i, p, hp, hi => by
    unfold copyReals
    split
    · rename_i hz
      have e : realPart (z :: zs) = z.re :: realPart zs := by simp [realPart, hz]
      rw [e] at hi ⊢
      simp only [List.length_cons] at hi
      obtain ⟨p1, a1, a2, a3, a4, a5, a6⟩ := setReal_spec hp (show i < p.numReal by omega) z.re
      obtain ⟨p2, b1, b2, b3, b4, b5, b6⟩ := copyReals_spec zs (i + 1) p1 a2 (by omega)
      refine ⟨p2, by rw [a1, Out.ok_bind, b1], b2, by omega, by omega, ?_, by rw [b6, a6]⟩
      rw [b5, a5, overwrite_cons _ _ _ _ (by rw [realRoots_length hp]; omega)]
    · rename_i hz
      have e : realPart (z :: zs) = realPart zs := by simp [realPart, hz]
      rw [e] at hi ⊢
      exact copyReals_spec zs i p hp hi

theorem copyPairs_spec : ∀ (zs : List ℂ) (i : ℕ) (p : FactoredPoly), p.WF →
    i + (upperPart zs).length ≤ p.numPairs →
    ∃ p', copyPairs zs i p = .ok p' ∧ p'.WF ∧ p'.numReal = p.numReal ∧ p'.numPairs = p.numPairs ∧
      p'.realRoots = p.realRoots ∧ p'.complexPairs = overwrite p.complexPairs i (upperPart zs)
  | [], i, p, hp, _ => ⟨p, rfl, hp, rfl, rfl, rfl, by simp [upperPart, overwrite_nil]⟩
  | z :: zs, i, p, hp, hi => by
    unfold copyPairs
    split
    · rename_i hz
      have e : upperPart (z :: zs) = z :: upperPart zs := by simp only [upperPart]; rw [List.filter_cons_of_pos (by simpa using hz)]
      rw [e] at hi ⊢
      simp only [List.length_cons] at hi
      obtain ⟨p1, a1, a2, a3, a4, a5, a6⟩ := setPair_spec hp (show i < p.numPairs by omega) z
      obtain ⟨p2, b1, b2, b3, b4, b5, b6⟩ := copyPairs_spec zs (i + 1) p1 a2 (by omega)
      refine ⟨p2, by rw [a1, Out.ok_bind, b1], b2, by omega, by omega, by rw [b5, a5], ?_⟩
      rw [b6, a6, overwrite_cons _ _ _ _ (by rw [complexPairs_length]; omega)]
    · rename_i hz
      have e : upperPart (z :: zs) = upperPart zs := by simp only [upperPart]; rw [List.filter_cons_of_neg (by simpa using hz)]
      rw [e] at hi ⊢
      exact copyPairs_spec zs i p hp hi

theorem realPart_length (zs : List ℂ) :
    (zs.map fun z : ℂ => if z.im = 0 then 1 else 0).sum = (realPart zs).length := by
  induction zs with
  | nil => rfl
  | cons z zs ih =>
    by_cases h : z.im = 0
    · simp [realPart, h] at ih ⊢; omega
    · simp [realPart, h] at ih ⊢; omega

theorem conj_inj {a b : ℂ} : (starRingEnd ℂ) a = (starRingEnd ℂ) b ↔ a = b :=
  (starRingEnd ℂ).injective.eq_iff

theorem count_map_conj (zs : List ℂ) (a : ℂ) :
    (zs.map (starRingEnd ℂ)).count a = zs.count ((starRingEnd ℂ) a) := by
  have := List.count_map_of_injective zs (starRingEnd ℂ) (starRingEnd ℂ).injective ((starRingEnd ℂ) a)
  rwa [Complex.conj_conj] at this

/-- The library's test for conjugate pairs says what it should. -/
theorem areRootsConjugatePairs_iff (zs : List ℂ) : areRootsConjugatePairs zs = true ↔ ConjugateClosed zs := by
  have hc : ∀ a : ℂ, zs.countP (fun o => decide (o = a)) = zs.count a := by
    intro a
    rw [List.count]
    congr 1
  unfold areRootsConjugatePairs ConjugateClosed
  simp only [List.all_eq_true, hc, decide_eq_true_eq]
  rw [List.perm_iff_count]
  constructor
  · intro h a
    rw [count_map_conj]
    by_cases ha : a ∈ zs
    · exact (h a ha).symm
    · by_cases ha' : (starRingEnd ℂ) a ∈ zs
      · have := h _ ha'
        rwa [Complex.conj_conj] at this
      · rw [List.count_eq_zero_of_not_mem ha, List.count_eq_zero_of_not_mem ha']
  · intro h a _
    have := h a
    rw [count_map_conj] at this
    exact this.symm

/-- Conjugate-closed lists consist of their real and upper parts and the conjugates of the latter. -/
theorem conjClosed_split {zs : List ℂ} (h : ConjugateClosed zs) :
    (rootsOf (realPart zs) (upperPart zs)).Perm zs := by
  rw [List.perm_iff_count]
  intro a
  unfold ConjugateClosed at h
  rw [List.perm_iff_count] at h
  have h := h a
  rw [count_map_conj] at h
  have hr : (realPart zs).map Complex.ofReal = zs.filter fun z => decide (z.im = 0) := by
    unfold realPart
    rw [List.map_map]
    conv_rhs => rw [← List.map_id (zs.filter _)]
    apply List.map_congr_left
    intro z hz
    simp only [List.mem_filter, decide_eq_true_eq] at hz
    apply Complex.ext <;> simp [hz.2]
  have hf : ∀ (q : ℂ → Bool) (b : ℂ), (zs.filter q).count b = if q b then zs.count b else 0 := by
    intro q b
    by_cases hq : q b
    · rw [List.count_filter hq, if_pos hq]
    · rw [if_neg hq, List.count_eq_zero_of_not_mem (by simp [hq])]
  unfold rootsOf
  rw [hr, List.count_append, List.count_append, count_map_conj]
  unfold upperPart
  rw [hf, hf, hf]
  simp only [decide_eq_true_eq, Complex.conj_im]
  rcases lt_trichotomy a.im 0 with hh | hh | hh
  · rw [if_neg (by linarith), if_neg (by linarith), if_pos (by linarith), h]; ring
  · rw [if_pos hh, if_neg (by linarith), if_neg (by linarith)]; ring
  · rw [if_neg (by linarith), if_pos (by linarith), if_neg (by linarith)]; ring

theorem empty_WF : FactoredPoly.empty.WF := rfl

theorem rootsOf_length (r : List ℝ) (z : List ℂ) : (rootsOf r z).length = r.length + 2 * z.length := by
  simp [rootsOf]; omega

/-- A freshly sized polynomial. -/
theorem resize_fresh (n m : ℕ) (rv : ℝ) (cv : ℂ) :
    ∃ p', FactoredPoly.empty.resize n m rv cv = .ok p' ∧ p'.WF ∧ p'.numReal = n ∧ p'.numPairs = m ∧
      p'.realRoots = List.replicate n rv ∧ p'.complexPairs = List.replicate m cv := by
  obtain ⟨p', h1, h2⟩ := resize_relaid empty_WF n m rv cv (.inr rfl)
  refine ⟨p', h1, h2.wf, h2.nr, h2.np, ?_, ?_⟩
  · rw [h2.reals]; simp [FactoredPoly.empty, FactoredPoly.realRoots]
  · rw [h2.pairs]; simp [FactoredPoly.empty, FactoredPoly.complexPairs]

theorem ofRoots_ok {zs : List ℂ} (h : ConjugateClosed zs) :
    ∃ p, FactoredPoly.ofRoots zs = .ok p ∧ p.WF ∧ p.realRoots = realPart zs ∧ p.complexPairs = upperPart zs := by
  have hl := (conjClosed_split h).length_eq
  rw [rootsOf_length] at hl
  unfold FactoredPoly.ofRoots
  simp only [realPart_length]
  rw [require_true (by omega), Out.ok_bind, require_true ((areRootsConjugatePairs_iff zs).2 h), Out.ok_bind]
  obtain ⟨p0, a1, a2, a3, a4, a5, a6⟩ := resize_fresh (realPart zs).length
    ((zs.length - (realPart zs).length) / 2) 0 0
  rw [a1, Out.ok_bind]
  obtain ⟨p1, b1, b2, b3, b4, b5, b6⟩ := copyReals_spec zs 0 p0 a2 (by omega)
  rw [b1, Out.ok_bind]
  obtain ⟨p2, c1, c2, c3, c4, c5, c6⟩ := copyPairs_spec zs 0 p1 b2 (by omega)
  refine ⟨p2, c1, c2, ?_, ?_⟩
  · rw [c5, b5, overwrite_all _ _ (by rw [realRoots_length a2, a3])]
  · rw [c6, overwrite_all _ _ (by rw [complexPairs_length]; omega)]

theorem ofRoots_throws {zs : List ℂ} (h : ¬ ConjugateClosed zs) : FactoredPoly.ofRoots zs = .throws := by
  unfold FactoredPoly.ofRoots
  simp only
  rw [← areRootsConjugatePairs_iff] at h
  by_cases h1 : (zs.length - (zs.map fun z : ℂ => if z.im = 0 then 1 else 0).sum) % 2 = 0
  · rw [require_true h1, Out.ok_bind, require, if_neg h]; rfl
  · rw [require, if_neg h1]; rfl

end

/-! ### evaluation -/

theorem foldl_mul_eq_prod {U : Type} [CommMonoid U] (l : List U) : l.foldl (fun a b => a * b) 1 = l.prod := by
  rw [List.prod_eq_foldl]

theorem eval_eq_rootProduct (p : FactoredPoly) (x : ℂ) :
    p.eval x = rootProduct (rootsOf p.realRoots p.complexPairs) x := by
  unfold FactoredPoly.eval rootProduct rootsOf
  simp only [foldl_mul_eq_prod, List.map_append, List.prod_append, List.map_map]
  rw [mul_assoc]
  congr 1
  rw [← List.prod_map_mul]
  congr 1
  apply List.map_congr_left
  intro z _
  simp only [Complex.coe_algebraMap, Function.comp]
  apply Complex.ext <;> simp <;> ring

/-- Real and complex evaluation agree. -/
theorem eval_ofReal (p : FactoredPoly) (x : ℝ) : ((p.eval x : ℝ) : ℂ) = p.eval (x : ℂ) := by
  unfold FactoredPoly.eval
  simp only [foldl_mul_eq_prod, Complex.ofReal_mul]
  congr 1
  · rw [← Complex.ofRealHom_eq_coe, map_list_prod, List.map_map]
    congr 1
    apply List.map_congr_left
    intro r _
    simp
  · rw [← Complex.ofRealHom_eq_coe, map_list_prod, List.map_map]
    congr 1
    apply List.map_congr_left
    intro r _
    simp

/-! ### expansion -/

open Polynomial in
/-- The list `c` holds the coefficients of `P`. -/
def Coeffs (c : List ℝ) (P : Polynomial ℝ) : Prop := ∀ i, sig c i = P.coeff i

theorem mulBy1_sig {R : Type} [Zero R] [Add R] [Mul R] (c : List R) (c0 : R) :
    ∃ c', mulBy1stOrder c c0 = .ok c' ∧ c'.length = c.length ∧
      ∀ i, i < c.length → sig c' i = (if 0 < i then sig c (i - 1) else 0) + sig c i * c0 := by
  unfold mulBy1stOrder
  obtain ⟨c', h1, h2, h3⟩ := forN_inv (σ := List R) (body := fun k (c1 : List R) => do
    let i : ℤ := (c.length : ℤ) - 1 - k
    let p0 ← (if 0 < i then rd c1 (i - 1) else pure 0)
    let p1 ← rd c1 i
    wr c1 i (p0 + p1 * c0))
    (fun k c1 => c1.length = c.length ∧ ∀ i, i < c.length → sig c1 i =
      if c.length - k ≤ i then (if 0 < i then sig c (i - 1) else 0) + sig c i * c0 else sig c i)
    c.length c ⟨rfl, fun i hi => by rw [if_neg (by omega)]⟩ (by
      intro k c1 hk ⟨hl, hs⟩
      obtain ⟨j, hj⟩ : ∃ j : ℕ, (c.length : ℤ) - 1 - k = j := ⟨c.length - 1 - k, by omega⟩
      simp only [hj]
      have hjl : j < c1.length := by omega
      have e0 : (if 0 < (j : ℤ) then rd c1 ((j : ℤ) - 1) else pure 0) =
          .ok (if 0 < j then sig c1 (j - 1) else 0) := by
        by_cases h0 : 0 < j
        · rw [if_pos (by omega), if_pos h0, show ((j : ℤ) - 1) = ((j - 1 : ℕ) : ℤ) by omega,
            rd_ofNat (by omega), sig_of_lt]
        · rw [if_neg (by omega), if_neg h0]; rfl
      rw [e0, Out.ok_bind, rd_ofNat hjl, Out.ok_bind, wr_eq (by omega) (by omega)]
      apply exists_ok rfl
      refine ⟨by simp [hl], fun i hi => ?_⟩
      rw [Int.toNat_natCast, sig_set _ _ _ _ hjl]
      by_cases hij : i = j
      · rw [if_pos hij, if_pos (show c.length - (k + 1) ≤ i by omega), ← sig_of_lt hjl, hs j (by omega), hij]
        rw [if_neg (show ¬ c.length - k ≤ j by omega)]
        have g1 : (if 0 < j then sig c1 (j - 1) else 0) = if 0 < j then sig c (j - 1) else 0 := by
          by_cases h0 : 0 < j
          · rw [if_pos h0, if_pos h0, hs _ (by omega), if_neg (by omega)]
          · rw [if_neg h0, if_neg h0]
        rw [g1]
      · rw [if_neg hij, hs i hi]
        by_cases h' : c.length - k ≤ i
        · rw [if_pos h', if_pos (show c.length - (k + 1) ≤ i by omega)]
        · rw [if_neg h', if_neg (show ¬ c.length - (k + 1) ≤ i by omega)])
  exact ⟨c', h1, h2, fun i hi => by rw [h3 i hi, if_pos (by omega)]⟩

theorem mulBy2_sig {R : Type} [Zero R] [Add R] [Mul R] (c : List R) (c0 c1 : R) :
    ∃ c', mulBy2ndOrder c c0 c1 = .ok c' ∧ c'.length = c.length ∧
      ∀ i, i < c.length → sig c' i =
        (if 1 < i then sig c (i - 2) else 0) + (if 0 < i then sig c (i - 1) else 0) * c1 + sig c i * c0 := by
  unfold mulBy2ndOrder
  obtain ⟨c', h1, h2, h3⟩ := forN_inv (σ := List R) (body := fun k (c2 : List R) => do
    let i : ℤ := (c.length : ℤ) - 1 - k
    let p0 ← (if 1 < i then rd c2 (i - 2) else pure 0)
    let p1 ← (if 0 < i then rd c2 (i - 1) else pure 0)
    let p2 ← rd c2 i
    wr c2 i (p0 + p1 * c1 + p2 * c0))
    (fun k c2 => c2.length = c.length ∧ ∀ i, i < c.length → sig c2 i =
      if c.length - k ≤ i then
        (if 1 < i then sig c (i - 2) else 0) + (if 0 < i then sig c (i - 1) else 0) * c1 + sig c i * c0
      else sig c i)
    c.length c ⟨rfl, fun i hi => by rw [if_neg (by omega)]⟩ (by
      intro k c2 hk ⟨hl, hs⟩
      obtain ⟨j, hj⟩ : ∃ j : ℕ, (c.length : ℤ) - 1 - k = j := ⟨c.length - 1 - k, by omega⟩
      simp only [hj]
      have hjl : j < c2.length := by omega
      have e0 : (if 0 < (j : ℤ) then rd c2 ((j : ℤ) - 1) else pure 0) =
          .ok (if 0 < j then sig c2 (j - 1) else 0) := by
        by_cases h0 : 0 < j
        · rw [if_pos (by omega), if_pos h0, show ((j : ℤ) - 1) = ((j - 1 : ℕ) : ℤ) by omega,
            rd_ofNat (by omega), sig_of_lt]
        · rw [if_neg (by omega), if_neg h0]; rfl
      have e1 : (if 1 < (j : ℤ) then rd c2 ((j : ℤ) - 2) else pure 0) =
          .ok (if 1 < j then sig c2 (j - 2) else 0) := by
        by_cases h0 : 1 < j
        · rw [if_pos (by omega), if_pos h0, show ((j : ℤ) - 2) = ((j - 2 : ℕ) : ℤ) by omega,
            rd_ofNat (by omega), sig_of_lt]
        · rw [if_neg (by omega), if_neg h0]; rfl
      rw [e1, Out.ok_bind, e0, Out.ok_bind, rd_ofNat hjl, Out.ok_bind, wr_eq (by omega) (by omega)]
      apply exists_ok rfl
      refine ⟨by simp [hl], fun i hi => ?_⟩
      rw [Int.toNat_natCast, sig_set _ _ _ _ hjl]
      by_cases hij : i = j
      · rw [if_pos hij, if_pos (show c.length - (k + 1) ≤ i by omega), ← sig_of_lt hjl, hs j (by omega), hij]
        rw [if_neg (show ¬ c.length - k ≤ j by omega)]
        have g1 : (if 0 < j then sig c2 (j - 1) else 0) = if 0 < j then sig c (j - 1) else 0 := by
          by_cases h0 : 0 < j
          · rw [if_pos h0, if_pos h0, hs _ (by omega), if_neg (by omega)]
          · rw [if_neg h0, if_neg h0]
        have g2 : (if 1 < j then sig c2 (j - 2) else 0) = if 1 < j then sig c (j - 2) else 0 := by
          by_cases h0 : 1 < j
          · rw [if_pos h0, if_pos h0, hs _ (by omega), if_neg (by omega)]
          · rw [if_neg h0, if_neg h0]
        rw [g1, g2]
      · rw [if_neg hij, hs i hi]
        by_cases h' : c.length - k ≤ i
        · rw [if_pos h', if_pos (show c.length - (k + 1) ≤ i by omega)]
        · rw [if_neg h', if_neg (show ¬ c.length - (k + 1) ≤ i by omega)])
  exact ⟨c', h1, h2, fun i hi => by rw [h3 i hi, if_pos (by omega)]⟩

open Polynomial

theorem mulBy1_coeffs {c : List ℝ} {P : ℝ[X]} {d : ℕ} (h : Coeffs c P) (hd : P.natDegree ≤ d)
    (hl : d + 1 < c.length) (r : ℝ) :
    ∃ c', mulBy1stOrder c (-r) = .ok c' ∧ c'.length = c.length ∧ Coeffs c' (P * (X - C r)) := by
  obtain ⟨c', h1, h2, h3⟩ := mulBy1_sig c (-r)
  refine ⟨c', h1, h2, fun i => ?_⟩
  rw [mul_sub, coeff_sub, coeff_mul_C]
  by_cases hi : i < c.length
  · rw [h3 i hi, h i]
    cases i with
    | zero => simp
    | succ i => simp only [Nat.zero_lt_succ, if_true, Nat.add_sub_cancel, coeff_mul_X, h i]; ring
  · rw [sig_of_ge (by omega), coeff_eq_zero_of_natDegree_lt (p := P) (n := i) (by omega)]
    cases i with
    | zero => simp
    | succ i => rw [coeff_mul_X, coeff_eq_zero_of_natDegree_lt (by omega)]; ring

theorem mulBy2_coeffs {c : List ℝ} {P : ℝ[X]} {d : ℕ} (h : Coeffs c P) (hd : P.natDegree ≤ d)
    (hl : d + 2 < c.length) (c0 c1 : ℝ) :
    ∃ c', mulBy2ndOrder c c0 c1 = .ok c' ∧ c'.length = c.length ∧ Coeffs c' (P * (X ^ 2 + C c1 * X + C c0)) := by
  obtain ⟨c', h1, h2, h3⟩ := mulBy2_sig c c0 c1
  refine ⟨c', h1, h2, fun i => ?_⟩
  have e : P * (X ^ 2 + C c1 * X + C c0) = P * X ^ 2 + P * X * C c1 + P * C c0 := by ring
  rw [e, coeff_add, coeff_add, coeff_mul_C, coeff_mul_C, coeff_mul_X_pow']
  have ex : (P * X).coeff i = if 0 < i then P.coeff (i - 1) else 0 := by
    cases i with
    | zero => simp
    | succ i => simp
  rw [ex]
  by_cases hi : i < c.length
  · rw [h3 i hi, h i, h (i - 1), h (i - 2)]
    rfl
  · rw [sig_of_ge (by omega), coeff_eq_zero_of_natDegree_lt (p := P) (n := i) (by omega),
      coeff_eq_zero_of_natDegree_lt (p := P) (n := i - 1) (by omega),
      coeff_eq_zero_of_natDegree_lt (p := P) (n := i - 2) (by omega)]
    simp

theorem expandReals_coeffs : ∀ (rs : List ℝ) (c : List ℝ) (P : ℝ[X]) (d : ℕ), Coeffs c P → P.natDegree ≤ d →
    d + rs.length < c.length →
    ∃ c', expandReals rs c = .ok c' ∧ c'.length = c.length ∧
      Coeffs c' (P * (rs.map fun r => X - C r).prod) ∧
      (P * (rs.map fun r => X - C r).prod).natDegree ≤ d + rs.length
  | [], c, P, d, h, hd, _ => ⟨c, rfl, rfl, by simpa using h, by simpa using hd⟩
  | r :: rs, c, P, d, h, hd, hl => by
    simp only [List.length_cons] at hl
    obtain ⟨c1, a1, a2, a3⟩ := mulBy1_coeffs h hd (by omega) r
    have hd' : (P * (X - C r)).natDegree ≤ d + 1 :=
      natDegree_mul_le_of_le hd (natDegree_X_sub_C_le r)
    obtain ⟨c2, b1, b2, b3, b4⟩ := expandReals_coeffs rs c1 _ (d + 1) a3 hd' (by omega)
    refine ⟨c2, by rw [expandReals, a1, Out.ok_bind, b1], by omega, ?_, ?_⟩
    · rw [List.map_cons, List.prod_cons, ← mul_assoc]; exact b3
    · rw [List.map_cons, List.prod_cons, ← mul_assoc]; simp only [List.length_cons]; omega

theorem expandPairs_coeffs : ∀ (zs : List ℂ) (c : List ℝ) (P : ℝ[X]) (d : ℕ), Coeffs c P → P.natDegree ≤ d →
    d + 2 * zs.length < c.length →
    ∃ c', expandPairs zs c = .ok c' ∧ c'.length = c.length ∧
      Coeffs c' (P * (zs.map fun z => X ^ 2 + C (-2 * z.re) * X + C (z.re * z.re + z.im * z.im)).prod)
  | [], c, P, d, h, hd, _ => ⟨c, rfl, rfl, by simpa using h⟩
  | z :: zs, c, P, d, h, hd, hl => by
    simp only [List.length_cons] at hl
    obtain ⟨c1, a1, a2, a3⟩ := mulBy2_coeffs h hd (by omega) (z.re * z.re + z.im * z.im) (-2 * z.re)
    have hd' : (P * (X ^ 2 + C (-2 * z.re) * X + C (z.re * z.re + z.im * z.im))).natDegree ≤ d + 2 := by
      apply natDegree_mul_le_of_le hd
      rw [show (X : ℝ[X]) ^ 2 = C 1 * X ^ 2 by simp]
      exact natDegree_quadratic_le
    obtain ⟨c2, b1, b2, b3⟩ := expandPairs_coeffs zs c1 _ (d + 2) a3 hd' (by omega)
    refine ⟨c2, by rw [expandPairs, a1, Out.ok_bind, b1], by omega, ?_⟩
    rw [List.map_cons, List.prod_cons, ← mul_assoc]; exact b3

/-- The polynomial with the given roots. -/
noncomputable def rootPoly (rs : List ℝ) (zs : List ℂ) : ℝ[X] :=
  (rs.map fun r => X - C r).prod *
    (zs.map fun z => X ^ 2 + C (-2 * z.re) * X + C (z.re * z.re + z.im * z.im)).prod

theorem expandPolynomial_coeffs {p : FactoredPoly} (hp : p.WF) :
    ∃ c, expandPolynomial p = .ok c ∧ c.length = p.numRoots + 1 ∧ Coeffs c (rootPoly p.realRoots p.complexPairs) := by
  unfold expandPolynomial
  rw [wr_eq (by omega) (by simp), Out.ok_bind]
  have hr := realRoots_length hp
  have hc := complexPairs_length p
  have h0 : Coeffs ((List.replicate (p.numRoots + 1) (0 : ℝ)).set 0 1) (1 : ℝ[X]) := by
    intro i
    rw [sig_set _ _ _ _ (by simp), coeff_one]
    split
    · rfl
    · unfold sig
      simp only [List.getD_eq_getElem?_getD, List.getElem?_replicate]
      split <;> simp
  obtain ⟨c1, a1, a2, a3, a4⟩ := expandReals_coeffs p.realRoots _ 1 0 h0 (by simp)
    (by simp only [List.length_set, List.length_replicate, FactoredPoly.numRoots]; omega)
  obtain ⟨c2, b1, b2, b3⟩ := expandPairs_coeffs p.complexPairs c1 _ _ a3 a4
    (by rw [a2]; simp only [List.length_set, List.length_replicate, FactoredPoly.numRoots]; omega)
  refine ⟨c2, ?_, by rw [b2, a2]; simp, ?_⟩
  · simp only [Int.toNat_zero]
    rw [a1, Out.ok_bind, b1]
  · unfold rootPoly
    rwa [one_mul] at b3

/-- Horner's scheme evaluates the polynomial. -/
theorem polyEval_eq {U : Type} [CommRing U] [Algebra ℝ U] (x : U) :
    ∀ (c : List ℝ) (P : ℝ[X]), Coeffs c P → polyEval (algebraMap ℝ U) c x = aeval x P := by
  have key : ∀ (c : List ℝ), polyEval (algebraMap ℝ U) c x =
      aeval x (∑ i ∈ Finset.range c.length, C (sig c i) * X ^ i) := by
    intro c
    unfold polyEval
    rw [List.foldl_reverse]
    induction c with
    | nil => simp
    | cons a c ih =>
      rw [List.foldr_cons, ih, List.length_cons, Finset.sum_range_succ']
      simp only [map_add, map_sum, map_mul, aeval_C, map_pow, aeval_X, pow_zero, mul_one, Finset.mul_sum]
      congr 1
      apply Finset.sum_congr rfl
      intro i _
      rw [show sig (a :: c) (i + 1) = sig c i by simp [sig]]
      ring
  intro c P h
  rw [key]
  congr 1
  ext i
  rw [finsetSum_coeff]
  simp only [coeff_C_mul_X_pow]
  rw [← h i]
  by_cases hi : i < c.length
  · simp [hi]
  · rw [sig_of_ge (by omega)]
    apply Finset.sum_eq_zero
    intro j hj
    rw [Finset.mem_range] at hj
    rw [if_neg (by omega)]

theorem aeval_rootPoly {U : Type} [CommRing U] [Algebra ℝ U] (p : FactoredPoly) (x : U) :
    aeval x (rootPoly p.realRoots p.complexPairs) = p.eval x := by
  unfold rootPoly FactoredPoly.eval
  simp only [foldl_mul_eq_prod, map_mul]
  congr 1
  · rw [map_list_prod, List.map_map]
    congr 1
    apply List.map_congr_left
    intro r _
    simp
  · rw [map_list_prod, List.map_map]
    congr 1
    apply List.map_congr_left
    intro r _
    simp only [Function.comp, map_add, map_mul, map_pow, aeval_X, aeval_C, map_neg]
    ring

theorem expand_eval {U : Type} [CommRing U] [Algebra ℝ U] {p : FactoredPoly} (hp : p.WF) (x : U) :
    ∃ c, expandPolynomial p = .ok c ∧ c.length = p.numRoots + 1 ∧ polyEval (algebraMap ℝ U) c x = p.eval x := by
  obtain ⟨c, h1, h2, h3⟩ := expandPolynomial_coeffs hp
  exact ⟨c, h1, h2, by rw [polyEval_eq x c _ h3, aeval_rootPoly]⟩

end Verif
