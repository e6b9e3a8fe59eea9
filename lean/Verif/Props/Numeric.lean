import Verif.Lemmas.Numeric2
import Mathlib.Algebra.BigOperators.Ring.List

/-!
# Properties C08–C11: element-wise transforms, reductions, inner products

`vec`/`W`: whether a vectorised path exists, and the register width — both arbitrary, so the theorems
hold on every machine.  `std::reduce`-like external functions are only assumed to satisfy
`IsReduction` (Spec/Reduction.lean).
-/

namespace Verif
open OpTree

/-- **C08** (unary): on success-guaranteeing bounds and with an output that is either the input itself,
starts before it, or lies behind it, the kernel returns; output element `i` is `op` of input element `i`
*as it was before the call*, and nothing else changes. -/
theorem C08_transform_unary {α : Type u} (vec : Bool) (W : Nat) (op : α → α) (mem : List α)
    (pin count pout : Nat) (h1 : pin + count ≤ mem.length) (h2 : pout + count ≤ mem.length)
    (hal : pout ≤ pin ∨ pin + count ≤ pout) :
    ∃ mem', transform1 vec W op mem pin count pout = .ok mem' ∧ mem'.length = mem.length ∧
      (∀ i, i < count → mem'[pout + i]? = mem[pin + i]?.map op) ∧
      (∀ j, j < pout ∨ pout + count ≤ j → mem'[j]? = mem[j]?) := by
  rcases Nat.eq_zero_or_pos count with rfl | hc
  · refine ⟨mem, ?_, rfl, by simp, fun _ _ => rfl⟩
    unfold transform1
    cases vec <;> simp [forN]
  · have hp : pin < mem.length := by omega
    obtain ⟨m, he, hd⟩ := transform1_done vec W op mem pin count pout mem[pin] h1 h2 hal
    refine ⟨m, he, hd.1, fun i hi => ?_, fun j hj => ?_⟩
    · have hi' : pin + i < mem.length := by omega
      rw [hd.2, if_pos (by omega), List.getElem?_eq_getElem hi']
      simp [hi']
    · rw [hd.2, if_neg (by omega)]

/-- **C08** (binary), same aliasing freedom for both inputs. -/
theorem C08_transform_binary {α : Type u} (vec : Bool) (W : Nat) (op : α → α → α) (mem : List α)
    (pin₁ count pin₂ pout : Nat) (h1 : pin₁ + count ≤ mem.length) (h1' : pin₂ + count ≤ mem.length)
    (h2 : pout + count ≤ mem.length)
    (hal : pout ≤ pin₁ ∨ pin₁ + count ≤ pout) (hal' : pout ≤ pin₂ ∨ pin₂ + count ≤ pout) :
    ∃ mem', transform2 vec W op mem pin₁ count pin₂ pout = .ok mem' ∧ mem'.length = mem.length ∧
      (∀ i x y, i < count → mem[pin₁ + i]? = some x → mem[pin₂ + i]? = some y →
        mem'[pout + i]? = some (op x y)) ∧
      (∀ j, j < pout ∨ pout + count ≤ j → mem'[j]? = mem[j]?) := by
  rcases Nat.eq_zero_or_pos count with rfl | hc
  · refine ⟨mem, ?_, rfl, by simp, fun _ _ => rfl⟩
    unfold transform2
    cases vec <;> simp [forN]
  · have hp : pin₁ < mem.length := by omega
    obtain ⟨m, he, hd⟩ := transform2_done vec W op mem pin₁ count pin₂ pout mem[pin₁] h1 h1' h2 hal hal'
    refine ⟨m, he, hd.1, fun i x y hi hx hy => ?_, fun j hj => ?_⟩
    · rw [hd.2, if_pos (by omega)]
      have e : pout + i - pout = i := by omega
      simp [e, List.getD_eq_getElem?_getD, hx, hy]
    · rw [hd.2, if_neg (by omega)]

-- in-place on a length that is not a multiple of the register width
example : transform1 true 4 (· * 10) [1, 2, 3, 4, 5, 6, 7] 1 5 1 =
    .ok [1, 20, 30, 40, 50, 60, 7] := by decide
example : transform2 true 2 (· + ·) [1, 2, 3, 10, 20, 30, 0, 0, 0] 0 3 3 6 =
    .ok [1, 2, 3, 10, 20, 30, 11, 22, 33] := by decide
-- out of range is detected by the model
example : transform1 true 4 (· * 10) [1, 2, 3] 0 4 0 = .ub := by decide

/-- `foldl` and the 4-fold unrolled `std::reduce` of libstdc++ both give the assumed guarantee. -/
theorem isReduction_foldl {β : Type u} : IsReduction (fun (op : β → β → β) init l => l.foldl op init) := by
  intro op init l
  suffices ∀ (t : OpTree β) (l : List β), ∃ t' : OpTree β, t'.leaves = t.leaves ++ l ∧
      l.foldl op (t.eval op) = t'.eval op by
    obtain ⟨t', h1, h2⟩ := this (.leaf init) l
    exact ⟨t', by rw [h1]; simp [leaves], h2⟩
  intro t l
  induction l generalizing t with
  | nil => exact ⟨t, by simp, rfl⟩
  | cons x l ih =>
    obtain ⟨t', h1, h2⟩ := ih (.node t (.leaf x))
    exact ⟨t', by rw [h1]; simp [leaves], h2⟩

/-- **C09**: for *any* operation (no algebraic law assumed, so including floating point addition),
the reduction returns, reads only the given range, and its result is a parenthesisation in which the
init value and every element of the range occur exactly once. -/
theorem C09_reduce_any_op {β : Type u} (vec : Bool) (W : Nat) (hW : 0 < W) (red₁ red₂ : Reducer β)
    (h₁ : IsReduction red₁) (h₂ : IsReduction red₂) (op : β → β → β) (mem : List β)
    (first count : Nat) (hb : first + count ≤ mem.length) (init : β) :
    ∃ t : OpTree β, t.leaves.Perm (init :: (mem.drop first).take count) ∧
      reduce vec W red₁ red₂ mem first count init (plainOp op) = .ok (t.eval op) := by
  obtain ⟨t, h, e⟩ := transformReduce_tree (vec := vec) (fun _ => hW) (plain_exact op) h₁ h₂ id mem first
    count hb init
  exact ⟨t, by simpa using h, e⟩

/-- Permuting the leaves of a tree does not change its value under an associative-commutative
operation. -/
theorem tree_eval_comm {β : Type u} (op : β → β → β) (ha : ∀ a b c, op (op a b) c = op a (op b c))
    (hc : ∀ a b, op a b = op b a) (t : OpTree β) (x : β) (l : List β) (h : t.leaves.Perm (x :: l)) :
    t.eval op = l.foldl op x := by
  obtain ⟨y, k, hk⟩ : ∃ y k, t.leaves = y :: k := by
    cases hl : t.leaves with
    | nil => rw [hl] at h; simp at h
    | cons y k => exact ⟨y, k, rfl⟩
  rw [eval_assoc op ha t y k hk]
  rw [hk] at h
  have key : ∀ {a b : List β}, a.Perm b → ∀ (y : β) (k : List β) (x : β) (l : List β),
      a = y :: k → b = x :: l → k.foldl op y = l.foldl op x := by
    intro a b hab y k x l e1 e2
    subst e1 e2
    by_cases hxy : y = x
    · subst hxy
      have := (List.perm_cons y).1 hab
      exact this.foldl_eq (rcomm := ⟨fun a b c => by rw [ha, hc b c, ← ha]⟩) y
    · have hx : x ∈ k := by
        have := hab.symm.subset (List.mem_cons_self (a := x) (l := l))
        simp only [List.mem_cons] at this
        rcases this with h | h
        · exact absurd h.symm hxy
        · exact h
      obtain ⟨k1, k2, rfl⟩ := List.append_of_mem hx
      have p1 : (k1 ++ x :: k2).Perm (x :: (k1 ++ k2)) := List.perm_middle
      have e1 : (k1 ++ x :: k2).foldl op y = (x :: (k1 ++ k2)).foldl op y :=
        p1.foldl_eq (rcomm := ⟨fun a b c => by rw [ha, hc b c, ← ha]⟩) y
      have p2 : (y :: (k1 ++ k2)).Perm l := by
        have := (p1.cons y).symm.trans hab
        have := (List.Perm.swap x y (k1 ++ k2)).symm.symm.symm.trans this
        exact (List.perm_cons x).1 this
      have e2 := p2.foldl_eq (f := op) (rcomm := ⟨fun a b c => by rw [ha, hc b c, ← ha]⟩) x
      rw [e1, ← e2]
      simp only [List.foldl_cons, hc]
  exact key h y k x l rfl rfl

/-- **C09**: for an associative and commutative operation the result is the sequential left fold. -/
theorem C09_reduce_fold {β : Type u} (vec : Bool) (W : Nat) (hW : 0 < W) (red₁ red₂ : Reducer β)
    (h₁ : IsReduction red₁) (h₂ : IsReduction red₂) (op : β → β → β)
    (ha : ∀ a b c, op (op a b) c = op a (op b c)) (hc : ∀ a b, op a b = op b a) (mem : List β)
    (first count : Nat) (hb : first + count ≤ mem.length) (init : β) :
    reduce vec W red₁ red₂ mem first count init (plainOp op) =
      .ok (((mem.drop first).take count).foldl op init) := by
  obtain ⟨t, hp, he⟩ := C09_reduce_any_op vec W hW red₁ red₂ h₁ h₂ op mem first count hb init
  rw [he, tree_eval_comm op ha hc t _ _ hp]

/-- **C09**, scalar path: without vectorisation the operands even keep their order, so associativity
alone suffices. -/
theorem C09_reduce_scalar_order {β : Type u} (W : Nat) (red₁ red₂ : Reducer β) (op : β → β → β)
    (ha : ∀ a b c, op (op a b) c = op a (op b c)) (mem : List β)
    (first count : Nat) (hb : first + count ≤ mem.length) (init : β) :
    reduce false W red₁ red₂ mem first count init (plainOp op) =
      .ok (((mem.drop first).take count).foldl op init) := by
  obtain ⟨t, hl, he⟩ := reduceExplicit_tree (load := fun q => id <$> rd mem (q : Int)) (stride := 1)
    Nat.one_pos (plain_exact op) (fun j => mem.getD (first + j) init) count first init trivial (by
      intro j hj
      refine ⟨?_, trivial⟩
      have : first + j < mem.length := by omega
      rw [Nat.mul_one, rd_ofNat this, List.getD_eq_getElem _ _ this]; rfl)
  have hs := seg_eq_map id init mem first count hb
  simp only [List.map_id, id] at hs
  have := eval_assoc op ha t _ _ (hl.trans (by rw [← hs]))
  rw [Nat.mul_one] at he
  unfold reduce
  simp only [transformReduce, Bool.false_eq_true, if_false]
  rw [he]
  exact congrArg Out.ok this

example : reduce true 4 (fun op i l => l.foldl op i) (fun op i l => l.foldl op i)
    [1, 2, 3, 4, 5, 6, 7, 8, 9, 10, 11] 0 11 100 (plainOp (· + ·)) = .ok 166 := by decide
-- with a non-associative operation the parenthesisation is visible
example : reduce true 2 (fun op i l => l.foldl op i) (fun op i l => l.foldl op i)
    [1, 2, 3, 4, 5] 0 5 (100 : Int) (plainOp fun a b => a - 2 * b) ≠
    reduce false 2 (fun op i l => l.foldl op i) (fun op i l => l.foldl op i)
    [1, 2, 3, 4, 5] 0 5 (100 : Int) (plainOp fun a b => a - 2 * b) := by decide

/-- **C10**: transform-reduce, any operation. -/
theorem C10_transformReduce_any_op {α β : Type u} (vec : Bool) (W : Nat) (hW : 0 < W)
    (red₁ red₂ : Reducer β) (h₁ : IsReduction red₁) (h₂ : IsReduction red₂) (op : β → β → β)
    (f : α → β) (mem : List α) (first count : Nat) (hb : first + count ≤ mem.length) (init : β) :
    ∃ t : OpTree β, t.leaves.Perm (init :: ((mem.drop first).take count).map f) ∧
      transformReduce vec W red₁ red₂ f mem first count init (plainOp op) = .ok (t.eval op) :=
  transformReduce_tree (fun _ => hW) (plain_exact op) h₁ h₂ f mem first count hb init

/-- **C10**: inner product, any operations. -/
theorem C10_innerProduct_any_op {α₁ α₂ β : Type u} (vec : Bool) (W : Nat) (hW : 0 < W)
    (red₁ red₂ : Reducer β) (h₁ : IsReduction red₁) (h₂ : IsReduction red₂) (op : β → β → β)
    (prod : α₁ → α₂ → β) (mem₁ : List α₁) (mem₂ : List α₂) (p₁ count p₂ : Nat)
    (hb₁ : p₁ + count ≤ mem₁.length) (hb₂ : p₂ + count ≤ mem₂.length) (init : β) :
    ∃ t : OpTree β, t.leaves.Perm (init :: List.zipWith prod ((mem₁.drop p₁).take count)
        ((mem₂.drop p₂).take count)) ∧
      innerProduct vec W red₁ red₂ prod mem₁ mem₂ p₁ count p₂ init (plainOp op) = .ok (t.eval op) :=
  innerProduct_tree (fun _ => hW) (plain_exact op) h₁ h₂ prod mem₁ mem₂ p₁ count p₂ hb₁ hb₂ init

/-- **C10**, exact arithmetic: dot product of equal-length signals is the sum of products; unequal
lengths fail the assertion. -/
theorem C10_dotProduct {R : Type u} [CommRing R] (vec : Bool) (W : Nat) (hW : 0 < W)
    (red₁ red₂ : Reducer R) (h₁ : IsReduction red₁) (h₂ : IsReduction red₂) (a b : List R) :
    (a.length = b.length → dotProduct vec W red₁ red₂ (· * ·) a b = .ok (List.zipWith (· * ·) a b).sum) ∧
    (a.length ≠ b.length → dotProduct vec W red₁ red₂ (· * ·) a b = .assertFail) := by
  constructor
  · intro h
    obtain ⟨t, hp, he⟩ := C10_innerProduct_any_op vec W hW red₁ red₂ h₁ h₂ (· + ·) (· * ·) a b 0
      a.length 0 (by omega) (by omega) (0 : R)
    simp only [dotProduct, cassert_true h, Out.ok_bind]
    rw [he, eval_add, hp.sum_eq]
    simp only [List.drop_zero, List.take_length, List.sum_cons, zero_add]
    rw [h, List.take_length]
  · intro h
    simp [dotProduct, cassert, h]

/-- **C11**: in exact arithmetic compensated summation over any signal returns the plain sum, and the
same for transformed signals (sum of squares, …), for every register width. -/
theorem C11_compensated_sum {α R : Type u} [AddCommGroup R] (vec : Bool) (W : Nat) (hW : 0 < W)
    (red₁ red₂ : Reducer R) (h₁ : IsReduction red₁) (h₂ : IsReduction red₂) (f : α → R)
    (mem : List α) (first count : Nat) (hb : first + count ≤ mem.length) (init : R) :
    transformReduce vec W red₁ red₂ f mem first count init plusCompensated =
      .ok (init + (((mem.drop first).take count).map f).sum) := by
  obtain ⟨t, hp, he⟩ := transformReduce_tree (vec := vec) (fun _ => hW) plusCompensated_exact h₁ h₂ f mem
    first count hb init
  rw [he]
  have : t.eval (plusCompensated : ReduceOp R).op = t.leaves.sum := eval_add t
  rw [this, hp.sum_eq]
  simp

/-- **C11**: the Kahan step leaves the carry at zero in exact arithmetic and adds the item. -/
theorem C11_carry_zero {R : Type u} [AddCommGroup R] (s x : R) :
    ∃ f, (plusCompensated : ReduceOp R).comp = some (0, f) ∧ f 0 s x = (0, s + x) :=
  ⟨_, rfl, by simp⟩

/-- **C11**: compensated and plain inner products agree in exact arithmetic. -/
theorem C11_compensated_innerProduct {α₁ α₂ R : Type u} [AddCommGroup R] (vec : Bool) (W : Nat)
    (hW : 0 < W) (red₁ red₂ : Reducer R) (h₁ : IsReduction red₁) (h₂ : IsReduction red₂)
    (prod : α₁ → α₂ → R) (mem₁ : List α₁) (mem₂ : List α₂) (p₁ count p₂ : Nat)
    (hb₁ : p₁ + count ≤ mem₁.length) (hb₂ : p₂ + count ≤ mem₂.length) (init : R) :
    innerProduct vec W red₁ red₂ prod mem₁ mem₂ p₁ count p₂ init plusCompensated =
      .ok (init + (List.zipWith prod ((mem₁.drop p₁).take count) ((mem₂.drop p₂).take count)).sum) := by
  obtain ⟨t, hp, he⟩ := innerProduct_tree (vec := vec) (fun _ => hW) plusCompensated_exact h₁ h₂ prod
    mem₁ mem₂ p₁ count p₂ hb₁ hb₂ init
  rw [he]
  have : t.eval (plusCompensated : ReduceOp R).op = t.leaves.sum := eval_add t
  rw [this, hp.sum_eq]
  simp

example : transformReduce true 2 (fun op i l => l.foldl op i) (fun op i l => l.foldl op i)
    (fun x : Int => x * x) ((List.range 21).map Int.ofNat) 0 21 0 plusCompensated = .ok 2870 := by
  decide +kernel

end Verif
