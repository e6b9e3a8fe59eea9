import Verif.Cpp

/-!
# Model of the vectorised numeric kernels  (include/dspbb/Kernels/Numeric.hpp)

Memory is a list of elements and a pointer is an index into it; every access is range checked
(`Out.ub` outside).  A SIMD register (`xsimd::batch`) is a list of `W` lanes, `W` arbitrary.
Input and output of the element-wise kernels live in the same memory, so every aliasing pattern
is covered.
Simplifications: the element types of inputs, outputs, accumulator and init value of a
reduction agree (no implicit conversions); SIMD operations are the scalar operation on each lane.
`std::reduce`, `std::transform_reduce` and `xsimd::reduce_add` are external: they are parameters
(`red`) about which only the guarantee of the C++ standard is assumed (`IsReduction`).
-/

namespace Verif

/-- `V::load_unaligned(p)`: reads `W` consecutive elements. -/
def loadV {α : Type u} (W : Nat) (mem : List α) (p : Nat) : Out (List α) :=
  if p + W ≤ mem.length then .ok ((mem.drop p).take W) else .ub

/-- `v.store_unaligned(p)`: overwrites `W` consecutive elements. -/
def storeV {α : Type u} (mem : List α) (p : Nat) (v : List α) : Out (List α) :=
  if p + v.length ≤ mem.length then .ok (mem.take p ++ v ++ mem.drop (p + v.length)) else .ub

/-- Numeric.hpp:101-127, unary `Transform`.  `vec` is the compile-time decision whether a
vectorised path exists (otherwise only the scalar loop runs). -/
def transform1 {α : Type u} (vec : Bool) (W : Nat) (op : α → α)
    (mem : List α) (pin count pout : Nat) : Out (List α) := do
  let vectorCount := if vec then count / W else 0
  let mem ← forN vectorCount (fun k mem => do
    let v ← loadV W mem (pin + k * W)
    storeV mem (pout + k * W) (v.map op)) mem
  let done := vectorCount * W
  forN (count - done) (fun k mem => do
    let x ← rd mem ((pin + done + k : Nat) : Int)
    wr mem ((pout + done + k : Nat) : Int) (op x)) mem

/-- Numeric.hpp:129-158, binary `Transform`. -/
def transform2 {α : Type u} (vec : Bool) (W : Nat) (op : α → α → α)
    (mem : List α) (pin₁ count pin₂ pout : Nat) : Out (List α) := do
  let vectorCount := if vec then count / W else 0
  let mem ← forN vectorCount (fun k mem => do
    let v₁ ← loadV W mem (pin₁ + k * W)
    let v₂ ← loadV W mem (pin₂ + k * W)
    storeV mem (pout + k * W) (List.zipWith op v₁ v₂)) mem
  let done := vectorCount * W
  forN (count - done) (fun k mem => do
    let x ← rd mem ((pin₁ + done + k : Nat) : Int)
    let y ← rd mem ((pin₂ + done + k : Nat) : Int)
    wr mem ((pout + done + k : Nat) : Int) (op x y)) mem

/-- A reduction operator: `op` is the plain binary form; a compensated operator
(Functors.hpp:15-19) additionally has the ternary form taking and updating a carry, returning
`(new carry, result)`, and an initial carry. -/
structure ReduceOp (β : Type u) where
  op : β → β → β
  comp : Option (β × (β → β → β → β × β))

/-- The main loop shared by the three `...Explicit` kernels, Numeric.hpp:211-230, 291-310, 371-392:
`for (; first != last; first += 8 * stride)`.
The loop condition is an inequality test, so a position that steps over `last` keeps going until it
leaves the buffer; running out of `fuel` stands for that and is `ub`. -/
def octLoop {β : Type u} (load : Nat → Out β) (stride last : Nat) (r : ReduceOp β) :
    Nat → Nat → β → β → Out β
  | 0, _, _, _ => .ub
  | fuel + 1, first, carry, acc =>
    if first = last then .ok acc
    else do
      let v0 ← load first
      let v1 ← load (first + 1 * stride)
      let v2 ← load (first + 2 * stride)
      let v3 ← load (first + 3 * stride)
      let v4 ← load (first + 4 * stride)
      let v5 ← load (first + 5 * stride)
      let v6 ← load (first + 6 * stride)
      let v7 ← load (first + 7 * stride)
      let part := r.op (r.op (r.op v0 v1) (r.op v2 v3)) (r.op (r.op v4 v5) (r.op v6 v7))
      match r.comp with
      | none => octLoop load stride last r fuel (first + 8 * stride) carry (r.op acc part)
      | some (_, f) =>
        let (carry', acc') := f carry acc part
        octLoop load stride last r fuel (first + 8 * stride) carry' acc'

/-- Numeric.hpp:183-232 `ReduceExplicit`, 263-312 `TransformReduceExplicit`,
342-394 `InnerProductExplicit`.  The three functions are the same text except for how the `i`-th
value is obtained; that part is the parameter `load` (a position relative to the start of the
range(s), as `first2` advances together with `first1`). -/
def reduceExplicit {β : Type u} (load : Nat → Out β) (stride first last : Nat) (init : β)
    (r : ReduceOp β) : Out β := do
  let count := (last - first) / stride
  let singlet := count.testBit 0
  let doublet := count.testBit 1
  let quadruplet := count.testBit 2
  let mut acc := init
  let mut pos := first
  if singlet then
    let v0 ← load pos
    acc := r.op acc v0
    pos := pos + 1 * stride
  if doublet then
    let v0 ← load pos
    let v1 ← load (pos + 1 * stride)
    acc := r.op acc (r.op v0 v1)
    pos := pos + 2 * stride
  if quadruplet then
    let v0 ← load pos
    let v1 ← load (pos + 1 * stride)
    let v2 ← load (pos + 2 * stride)
    let v3 ← load (pos + 3 * stride)
    acc := r.op acc (r.op (r.op v0 v1) (r.op v2 v3))
    pos := pos + 4 * stride
  let carry := match r.comp with
    | none => init
    | some (c0, _) => c0
  octLoop load stride last r (last - first + 1) pos carry acc

/-- Lane-wise version of a reduction operator (SIMD registers). -/
def ReduceOp.lift {β : Type u} (W : Nat) (r : ReduceOp β) : ReduceOp (List β) where
  op := List.zipWith r.op
  comp := r.comp.map fun (c0, f) =>
    (List.replicate W c0, fun c s x =>
      let t := List.zipWith (fun c (sx : β × β) => f c sx.1 sx.2) c (List.zip s x)
      (t.map Prod.fst, t.map Prod.snd))

/-- A horizontal / tail reduction such as `std::reduce(first, last, init, op)`. -/
abbrev Reducer (β : Type u) := (β → β → β) → β → List β → β

/-- Numeric.hpp:234-256 `Reduce`; 314-335 `TransformReduce` (`f` maps the loaded element).
ReduceBatch: Numeric.hpp:165-181.  `red₁` is the horizontal reduction of the register, `red₂` the
reduction of the scalar tail. -/
def transformReduce {α β : Type u} (vec : Bool) (W : Nat) (red₁ red₂ : Reducer β) (f : α → β)
    (mem : List α) (pfirst count : Nat) (init : β) (r : ReduceOp β) : Out β := do
  if vec then
    let vectorCount := count / W
    let mut init := init
    let mut p := pfirst
    if vectorCount ≠ 0 then
      let v0 ← loadV W mem pfirst
      let res ← reduceExplicit (fun q => (List.map f) <$> loadV W mem q) W
        (pfirst + W) (pfirst + vectorCount * W) (v0.map f) (r.lift W)
      p := pfirst + vectorCount * W
      init := red₁ r.op init res
    let tail ← loadV (pfirst + count - p) mem p
    pure (red₂ r.op init (tail.map f))
  else
    reduceExplicit (fun q => f <$> rd mem (q : Int)) 1 pfirst (pfirst + count) init r

/-- Numeric.hpp:234-256 `Reduce`. -/
def reduce {β : Type u} (vec : Bool) (W : Nat) (red₁ red₂ : Reducer β)
    (mem : List β) (pfirst count : Nat) (init : β) (r : ReduceOp β) : Out β :=
  transformReduce vec W red₁ red₂ id mem pfirst count init r

/-- Numeric.hpp:396-425 `InnerProduct`; the two ranges start at `p₁` of `mem₁` and `p₂` of `mem₂`. -/
def innerProduct {α₁ α₂ β : Type u} (vec : Bool) (W : Nat) (red₁ red₂ : Reducer β)
    (prod : α₁ → α₂ → β) (mem₁ : List α₁) (mem₂ : List α₂) (p₁ count p₂ : Nat) (init : β)
    (r : ReduceOp β) : Out β := do
  if vec then
    let vectorCount := count / W
    let mut init := init
    let mut p := 0
    if vectorCount ≠ 0 then
      let v1 ← loadV W mem₁ p₁
      let v2 ← loadV W mem₂ p₂
      let res ← reduceExplicit (fun q => do
          let a ← loadV W mem₁ (p₁ + q)
          let b ← loadV W mem₂ (p₂ + q)
          pure (List.zipWith prod a b)) W
        (1 * W) (vectorCount * W) (List.zipWith prod v1 v2) (r.lift W)
      p := vectorCount * W
      init := red₁ r.op init res
    let t1 ← loadV (count - p) mem₁ (p₁ + p)
    let t2 ← loadV (count - p) mem₂ (p₂ + p)
    pure (red₂ r.op init (List.zipWith prod t1 t2))
  else
    reduceExplicit (fun q => do
        let a ← rd mem₁ ((p₁ + q : Nat) : Int)
        let b ← rd mem₂ ((p₂ + q : Nat) : Int)
        pure (prod a b)) 1 0 count init r

/-- Functors.hpp:48-65, `plus_compensated<void>`: plain sum for two arguments, Kahan step for three.
(The specialisation for a concrete `T`, 31-46, assigns to its `const` parameter `sum` in the ternary
form and does not compile when that form is used.) -/
def plusCompensated {β : Type u} [Add β] [Sub β] [Zero β] : ReduceOp β where
  op := (· + ·)
  comp := some (0, fun carry sum item =>
    let y := item - carry
    let t := sum + y
    ((t - sum) - y, t))

/-- An uncompensated operator. -/
def plainOp {β : Type u} (op : β → β → β) : ReduceOp β := ⟨op, none⟩

/-- Math/DotProduct.hpp:14-38 `DotProduct`; `prod` is `a*b` or `a*conj(b)`. -/
def dotProduct {α₁ α₂ β : Type u} [Add β] [Zero β] (vec : Bool) (W : Nat) (red₁ red₂ : Reducer β)
    (prod : α₁ → α₂ → β) (a : List α₁) (b : List α₂) : Out β := do
  cassert (a.length = b.length)
  innerProduct vec W red₁ red₂ prod a b 0 a.length 0 0 (plainOp (· + ·))

end Verif
