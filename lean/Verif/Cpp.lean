/-!
# A small vocabulary for modelling C++

Outcomes of a C++ call, checked memory accesses and counted loops.
Nothing in this file models a particular function of /repo; it is the language the models are
written in.
-/

namespace Verif

/-- Outcome of a call: normal return, failed `assert` (build with assertions enabled), thrown
exception, or undefined behaviour (out-of-bounds access, signed overflow, division by zero,
missing return...). -/
inductive Out (α : Type u) where
  | ok (a : α)
  | assertFail
  | throws
  | ub
  deriving DecidableEq, Repr

namespace Out

@[inline] def bind {α : Type u} {β : Type v} : Out α → (α → Out β) → Out β
  | .ok a, f => f a
  | .assertFail, _ => .assertFail
  | .throws, _ => .throws
  | .ub, _ => .ub

instance : Monad Out where
  pure := .ok
  bind := Out.bind

@[simp] theorem pure_def {α : Type u} (a : α) : (pure a : Out α) = .ok a := rfl
@[simp] theorem ok_bind {α β : Type u} (a : α) (f : α → Out β) : (Out.ok a >>= f) = f a := rfl
@[simp] theorem ub_bind {α β : Type u} (f : α → Out β) : ((Out.ub : Out α) >>= f) = .ub := rfl
@[simp] theorem throws_bind {α β : Type u} (f : α → Out β) :
    ((Out.throws : Out α) >>= f) = .throws := rfl
@[simp] theorem assertFail_bind {α β : Type u} (f : α → Out β) :
    ((Out.assertFail : Out α) >>= f) = .assertFail := rfl

instance : LawfulMonad Out := LawfulMonad.mk'
  (id_map := by intro α x; cases x <;> rfl)
  (pure_bind := by intros; rfl)
  (bind_assoc := by intro α β γ x f g; cases x <;> rfl)

theorem bind_eq_ok {α β : Type u} {x : Out α} {f : α → Out β} {b : β} :
    (x >>= f) = .ok b ↔ ∃ a, x = .ok a ∧ f a = .ok b := by
  cases x <;> simp [Bind.bind, Out.bind]

@[simp] theorem map_ok {α β : Type u} (f : α → β) (a : α) : (f <$> Out.ok a) = .ok (f a) := rfl

end Out

theorem exists_ok {α : Type u} {x : Out α} {P : α → Prop} {a : α} (h : x = .ok a) (p : P a) :
    ∃ a, x = .ok a ∧ P a := ⟨a, h, p⟩

/-- `assert(cond)` in a build in which assertions are enabled. -/
def cassert (cond : Prop) [Decidable cond] : Out PUnit.{u + 1} := if cond then .ok ⟨⟩ else .assertFail

/-- `if (!cond) throw ...` -/
def require (cond : Prop) [Decidable cond] : Out PUnit.{u + 1} := if cond then .ok ⟨⟩ else .throws

@[simp] theorem cassert_eq_ok {c : Prop} [Decidable c] {u : PUnit} : cassert c = .ok u ↔ c := by
  unfold cassert; split <;> simp_all

@[simp] theorem require_eq_ok {c : Prop} [Decidable c] {u : PUnit} : require c = .ok u ↔ c := by
  unfold require; split <;> simp_all

theorem cassert_true {c : Prop} [Decidable c] (h : c) : cassert c = .ok ⟨⟩ := by
  simp [cassert, h]

theorem require_true {c : Prop} [Decidable c] (h : c) : require c = .ok ⟨⟩ := by
  simp [require, h]

/-- Reading element `i` of a buffer through a pointer: out of range is undefined behaviour. -/
def rd {α : Type u} (a : List α) (i : Int) : Out α :=
  if 0 ≤ i then
    match a[i.toNat]? with
    | some x => .ok x
    | none => .ub
  else .ub

/-- Writing element `i` of a buffer through a pointer: out of range is undefined behaviour. -/
def wr {α : Type u} (a : List α) (i : Int) (x : α) : Out (List α) :=
  if 0 ≤ i ∧ i < a.length then .ok (a.set i.toNat x) else .ub

/-- `for (k = 0; k < n; ++k) s = body(k, s)` with early exit on abnormal outcomes. -/
def forN {σ : Type u} : Nat → (Nat → σ → Out σ) → σ → Out σ
  | 0, _, s => .ok s
  | n + 1, body, s => do
    let s' ← forN n body s
    body n s'

theorem rd_ofNat {α : Type u} {a : List α} {i : Nat} (h : i < a.length) :
    rd a (i : Int) = .ok a[i] := by
  simp [rd, h]

theorem rd_eq {α : Type u} {a : List α} {i : Int} (h0 : 0 ≤ i) (h : i < a.length) :
    rd a i = .ok (a[i.toNat]'(by omega)) := by
  have : i.toNat < a.length := by omega
  simp [rd, h0, this]

theorem rd_ub {α : Type u} {a : List α} {i : Int} (h : ¬ (0 ≤ i ∧ i < a.length)) :
    rd a i = .ub := by
  unfold rd
  split
  · have : a.length ≤ i.toNat := by omega
    simp [this]
  · rfl

theorem wr_eq {α : Type u} {a : List α} {i : Int} {x : α} (h0 : 0 ≤ i) (h : i < a.length) :
    wr a i x = .ok (a.set i.toNat x) := by
  simp [wr, h0, h]

/-- Invariant rule for counted loops. -/
theorem forN_inv {σ : Type u} {body : Nat → σ → Out σ} (I : Nat → σ → Prop) :
    ∀ (n : Nat) (s : σ), I 0 s →
      (∀ k s, k < n → I k s → ∃ s', body k s = .ok s' ∧ I (k + 1) s') →
      ∃ s', forN n body s = .ok s' ∧ I n s'
  | 0, s, h0, _ => ⟨s, rfl, h0⟩
  | n + 1, s, h0, hs => by
    obtain ⟨s', he, hi⟩ := forN_inv I n s h0 (fun k s hk => hs k s (by omega))
    obtain ⟨s'', he', hi'⟩ := hs n s' (by omega) hi
    exact ⟨s'', by simp [forN, he, he'], hi'⟩

/-- `while (cond(s)) s = body(s)`.  The loop runs on `fuel`; a loop that needs more iterations than
that (in particular one that never ends) is reported as `ub`. -/
def whileN {σ : Type u} : Nat → (σ → Bool) → (σ → Out σ) → σ → Out σ
  | 0, _, _, _ => .ub
  | fuel + 1, cond, body, s =>
    if cond s then do
      let s' ← body s
      whileN fuel cond body s'
    else .ok s

/-- Invariant rule for `whileN` with a known iteration count `n`. -/
theorem whileN_inv {σ : Type u} {cond : σ → Bool} {body : σ → Out σ} (I : Nat → σ → Prop) (n : Nat)
    (hstep : ∀ k s, k < n → I k s → cond s = true ∧ ∃ s', body s = .ok s' ∧ I (k + 1) s')
    (hend : ∀ s, I n s → cond s = false) :
    ∀ (fuel : Nat) (k : Nat) (s : σ), k ≤ n → n - k < fuel → I k s →
      ∃ s', whileN fuel cond body s = .ok s' ∧ I n s'
  | 0, _, _, _, h, _ => by omega
  | fuel + 1, k, s, hk, hf, hi => by
    by_cases e : k = n
    · subst e
      exact ⟨s, by simp [whileN, hend s hi], hi⟩
    · obtain ⟨hc, s', hb, hi'⟩ := hstep k s (by omega) hi
      obtain ⟨s'', h1, h2⟩ := whileN_inv I n hstep hend fuel (k + 1) s' (by omega) (by omega) hi'
      exact ⟨s'', by simp [whileN, hc, hb, h1], h2⟩

/-- Invariant rule for `whileN` with a decreasing measure. -/
theorem whileN_measure {σ : Type u} {cond : σ → Bool} {body : σ → Out σ} (I : σ → Prop) (m : σ → Nat)
    (hstep : ∀ s, I s → cond s = true → ∃ s', body s = .ok s' ∧ I s' ∧ m s' < m s) :
    ∀ (fuel : Nat) (s : σ), m s < fuel → I s →
      ∃ s', whileN fuel cond body s = .ok s' ∧ I s' ∧ cond s' = false
  | 0, _, h, _ => by omega
  | fuel + 1, s, hf, hi => by
    cases hc : cond s
    · exact ⟨s, by simp [whileN, hc], hi, hc⟩
    · obtain ⟨s', hb, hi', hm⟩ := hstep s hi hc
      obtain ⟨s'', h1, h2⟩ := whileN_measure I m hstep fuel s' (by omega) hi'
      exact ⟨s'', by simp [whileN, hc, hb, h1], h2⟩

end Verif
