import Verif.Lemmas.PocketNear
import Verif.Lemmas.PocketRPlan
import Verif.Lemmas.PocketFExec
import Verif.Spec.FloatRealFFT

/-! # Rounding errors of one pass of the real transform -/

set_option linter.unusedSimpArgs false
set_option linter.unusedSectionVars false
set_option linter.unusedVariables false

namespace Verif.PocketF
open Verif.Pocket (ld st ix rwx tab w cR cI)

variable {F : Type} [Zero F] [Add F] [Sub F] [Mul F] [Fma F] [Neg F]

/-! ### running the exact and the rounded program side by side -/

/-- `x` succeeds whenever `y` does, with a related result. -/
def Sim {α β : Type} (R : α → β → Prop) (x : Out α) (y : Out β) : Prop := ∀ b, y = .ok b → ∃ a, x = .ok a ∧ R a b

theorem Sim.bind {α β α' β' : Type} {R : α → β → Prop} {S : α' → β' → Prop} {x : Out α} {y : Out β} {f : α → Out α'}
    {g : β → Out β'} (h : Sim R x y) (k : ∀ a b, R a b → Sim S (f a) (g b)) : Sim S (x >>= f) (y >>= g) := by
  intro c hc
  obtain ⟨b, h1, h2⟩ := Out.bind_eq_ok.1 hc
  obtain ⟨a, e1, e2⟩ := h b h1
  obtain ⟨a', e3, e4⟩ := k a b e2 c h2
  exact ⟨a', by rw [e1, Out.ok_bind, e3], e4⟩

theorem Sim.pure {α β : Type} {R : α → β → Prop} {a : α} {b : β} (h : R a b) : Sim R (pure a : Out α) (pure b) := by
  intro c hc
  cases hc
  exact ⟨a, rfl, h⟩

theorem forN_sim {α β : Type} {R : α → β → Prop} {f : ℕ → α → Out α} {g : ℕ → β → Out β} :
    ∀ (n : ℕ) {a : α} {b : β}, (∀ i a b, i < n → R a b → Sim R (f i a) (g i b)) → R a b → Sim R (forN n f a) (forN n g b)
  | 0, a, b, _, h => Sim.pure h
  | n + 1, a, b, hs, h => by
    rw [forN, forN]
    exact (forN_sim n (fun i a b hi => hs i a b (by omega)) h).bind fun a b hab => hs n a b (by omega) hab

/-! ### rounding errors -/

variable {A : FloatArithNeg F} {M h b : ℝ}

/-- a constant of magnitude at most 2 -/
structure Const2 (A : FloatArithNeg F) (h : ℝ) (c : F) (e : ℝ) : Prop where
  fin : A.finite c
  acc : |A.val c - e| ≤ 8 * h * A.u
  two : |e| ≤ 2

theorem Const2.neg {c : F} {e : ℝ} (n : Const2 A h c e) : Const2 A h (-c) (-e) := by
  obtain ⟨f, e'⟩ := A.neg c n.fin
  refine ⟨f, ?_, by rw [abs_neg]; exact n.two⟩
  rw [e', ← neg_sub_neg, neg_neg, neg_neg, abs_sub_comm]
  exact n.acc

theorem Near.prod2 {a c p : F} {r e κ m : ℝ} (E : Env A M h b) (nc : Const2 A h c e) (na : Near A M h a r κ m)
    (hs : 8 * κ + 3 * m + 8 ≤ b)
    (hp : |A.val a * A.val c| ≤ A.huge →
      A.finite p ∧ |A.val p - A.val a * A.val c| ≤ A.u * |A.val a * A.val c| + A.tiny) :
    Near A M h p (r * e) (2 * κ + 11 * m + 3) (2 * m) := by
  have hM := E.M0
  have h1 := E.h1
  have hu := A.u_nonneg
  have htn := A.tiny_nonneg
  have k0 := na.κ0
  have m0 := na.m0
  have hb : 8 ≤ b := by linarith
  obtain ⟨d0, d1⟩ := E.delta (by linarith)
  obtain ⟨u1, u2, u3, u4⟩ := E.u1 (by linarith)
  obtain ⟨δ, hδ⟩ : ∃ δ, δ = A.u * M + A.tiny := ⟨_, rfl⟩
  have ea := na.err
  have va := na.abs_val E
  rw [← hδ] at d0 d1 ea va
  have h8 : 8 * h * A.u ≤ 1 := by
    have : 8 * h * A.u ≤ b * h * A.u := by gcongr
    linarith
  have hκ8 : 8 * κ * h * A.u ≤ 1 := by
    have : 8 * κ * h * A.u ≤ b * h * A.u := by gcongr; linarith
    linarith
  have hc2 : |A.val c| ≤ 2 + 8 * h * A.u := by
    have : |A.val c| ≤ |A.val c - e| + |e| := by
      calc |A.val c| = |(A.val c - e) + e| := by ring_nf
        _ ≤ _ := abs_add_le _ _
    linarith [nc.acc, nc.two]
  have hmM : m * M ≤ m * h * (M + A.tiny) := by
    have : m * 1 * (M + 0) ≤ m * h * (M + A.tiny) := by gcongr
    linarith
  have hkd : κ * h * δ ≤ κ * h * (M + A.tiny) := by gcongr
  have hprod : |A.val a * A.val c| ≤ (m * M + κ * h * δ) * 3 := by
    rw [abs_mul]
    have hc2' : |A.val c| ≤ 3 := by linarith
    have : 0 ≤ |A.val a| := abs_nonneg _
    calc |A.val a| * |A.val c| ≤ |A.val a| * 3 := by gcongr
      _ ≤ _ := by gcongr
  obtain ⟨f, er⟩ := hp (E.fits (by linarith) (c := 3 * (m + κ)) (by linarith) (by positivity) (by
    have e : 3 * (m + κ) * h * (M + A.tiny) = (m * h * (M + A.tiny) + κ * h * (M + A.tiny)) * 3 := by ring
    rw [e]
    refine hprod.trans ?_
    gcongr))
  refine ⟨f, ?_, ?_, by positivity, by positivity⟩
  · rw [← hδ]
    have huM : A.u * M ≤ δ := by rw [hδ]; linarith
    have htδ : A.tiny ≤ δ := by rw [hδ]; nlinarith [mul_nonneg hu hM]
    have hδh : δ ≤ h * δ := by nlinarith
    have t1 : |A.val a * A.val c - r * e| ≤ κ * h * δ * (2 + 8 * h * A.u) + m * M * (8 * h * A.u) := by
      calc |A.val a * A.val c - r * e| = |(A.val a - r) * A.val c + r * (A.val c - e)| := by ring_nf
        _ ≤ |(A.val a - r) * A.val c| + |r * (A.val c - e)| := abs_add_le _ _
        _ = |A.val a - r| * |A.val c| + |r| * |A.val c - e| := by rw [abs_mul, abs_mul]
        _ ≤ _ := by
          have g1 := nc.acc
          have g2 := na.mag
          have : 0 ≤ |A.val c| := abs_nonneg _
          have : 0 ≤ |A.val c - e| := abs_nonneg _
          have : 0 ≤ κ * h * δ := by positivity
          have : 0 ≤ m * M := by positivity
          gcongr
    have t2 : κ * h * δ * (8 * h * A.u) ≤ h * δ := by
      have e : κ * h * δ * (8 * h * A.u) = (8 * κ * h * A.u) * (h * δ) := by ring
      rw [e]
      have : 0 ≤ h * δ := by positivity
      nlinarith
    have t3 : m * M * (8 * h * A.u) ≤ 8 * m * (h * δ) := by
      have e : m * M * (8 * h * A.u) = 8 * m * (h * (A.u * M)) := by ring
      rw [e]
      gcongr
    have t4 : A.u * |A.val a * A.val c| ≤ 3 * m * (h * δ) + h * δ := by
      have g1 : A.u * |A.val a * A.val c| ≤ A.u * ((m * M + κ * h * δ) * 3) := by gcongr
      have g2 : A.u * ((m * M + κ * h * δ) * 3) = 3 * (m * (A.u * M)) + 3 * (κ * h * A.u) * δ := by ring
      have g3 : m * (A.u * M) ≤ m * (h * δ) := mul_le_mul_of_nonneg_left (by linarith) m0
      have g4 : 3 * (κ * h * A.u) * δ ≤ 1 * δ := by
        have : 0 ≤ κ * h * A.u := by positivity
        gcongr
        linarith
      linarith
    have t5 : |A.val p - r * e| ≤ |A.val p - A.val a * A.val c| + |A.val a * A.val c - r * e| := by
      calc |A.val p - r * e| = |(A.val p - A.val a * A.val c) + (A.val a * A.val c - r * e)| := by ring_nf
        _ ≤ _ := abs_add_le _ _
    have e : (2 * κ + 11 * m + 3) * h * δ = 2 * (κ * h * δ) + 11 * m * (h * δ) + 3 * (h * δ) := by ring
    rw [e]
    linarith
  · rw [abs_mul]
    have := na.mag
    have := nc.two
    have : 0 ≤ |e| := abs_nonneg _
    have : 0 ≤ m * M := by positivity
    calc |r| * |e| ≤ m * M * 2 := by gcongr
      _ = 2 * m * M := by ring

theorem Near.mul2' {a c : F} {r e κ m : ℝ} (E : Env A M h b) (nc : Const2 A h c e) (na : Near A M h a r κ m)
    (hs : 8 * κ + 3 * m + 8 ≤ b) : Near A M h (c * a) (e * r) (2 * κ + 11 * m + 3) (2 * m) := by
  rw [mul_comm e r]
  refine na.prod2 E nc hs (fun hv => ?_)
  rw [mul_comm (A.val a)] at hv ⊢
  exact A.mul c a nc.fin na.fin hv

theorem Near.mulc' {a c : F} {r e κ m : ℝ} (E : Env A M h b) (nc : Const A h c e) (na : Near A M h a r κ m)
    (hs : 3 * κ + 2 * m + 1 ≤ b) : Near A M h (c * a) (e * r) (κ + 3 * m + 4) m := na.mul' E nc hs

theorem Near.mulc {a c : F} {r e κ m : ℝ} (E : Env A M h b) (nc : Const A h c e) (na : Near A M h a r κ m)
    (hs : 3 * κ + 2 * m + 1 ≤ b) : Near A M h (a * c) (r * e) (κ + 3 * m + 4) m := na.mul E nc hs

/-- twice a constant -/
theorem Const.double {c t : F} {e : ℝ} (E : Env A M h b) (hb : 1 ≤ b) (ht : A.tiny ≤ A.u) (hH : 4 ≤ A.huge) (nc : Const A h c e)
    (nt : A.finite t ∧ A.val t = 2) : Const2 A h (t * c) (2 * e) := by
  have h1 := E.h1
  have hu := A.u_nonneg
  have hhu := (E.u1 hb).1
  have hc2 : |A.val c| ≤ 1 + h * A.u := by
    have : |A.val c| ≤ |A.val c - e| + |e| := by
      calc |A.val c| = |(A.val c - e) + e| := by ring_nf
        _ ≤ _ := abs_add_le _ _
    linarith [nc.acc.2, nc.one]
  have hp : |A.val t * A.val c| ≤ 2 + 2 * (h * A.u) := by
    rw [nt.2, abs_mul, abs_two]; linarith
  obtain ⟨f, er⟩ := A.mul t c nt.1 nc.acc.1 (by linarith)
  refine ⟨f, ?_, by rw [abs_mul, abs_two]; linarith [nc.one]⟩
  have e1 : |A.val (t * c) - 2 * e| ≤ |A.val (t * c) - A.val t * A.val c| + |A.val t * A.val c - 2 * e| := by
    calc _ = |(A.val (t * c) - A.val t * A.val c) + (A.val t * A.val c - 2 * e)| := by ring_nf
      _ ≤ _ := abs_add_le _ _
  have e2 : |A.val t * A.val c - 2 * e| ≤ 2 * (h * A.u) := by
    rw [nt.2, ← mul_sub, abs_mul, abs_two]; linarith [nc.acc.2]
  have e3 : A.u * |A.val t * A.val c| ≤ A.u * 4 := by gcongr; linarith
  have e4 : 1 * A.u ≤ h * A.u := by gcongr
  linarith

theorem Const2.ofTwo {t : F} (h1 : 1 ≤ h) (nt : A.finite t ∧ A.val t = 2) : Const2 A h t 2 := by
  refine ⟨nt.1, ?_, by norm_num⟩
  rw [nt.2, sub_self, abs_zero]
  have := A.u_nonneg
  positivity

/-! ### buffers -/

/-- the input buffer: the exact program works with the values of the floating point numbers -/
def Src (A : FloatArithNeg F) (M h : ℝ) (cc : List F) (cc' : List ℝ) : Prop :=
  cc.length = cc'.length ∧ ∀ (n : ℕ) (a : F) (r : ℝ), cc[n]? = some a → cc'[n]? = some r → Near A M h a r 0 1

/-- the output buffer: every element is accurate or has not been written yet -/
def Dst (A : FloatArithNeg F) (M h : ℝ) (t : ℕ → ℝ) (ch : List F) (ch' : List ℝ) : Prop :=
  ch.length = ch'.length ∧
    ∀ (n : ℕ) (a : F) (r : ℝ), ch[n]? = some a → ch'[n]? = some r → Near A M h a r 300 40 ∨ r = t n

variable {t : ℕ → ℝ} {cc ch : List F} {cc' ch' : List ℝ}

theorem ld_sim (hs : Src A M h cc cc') (n : ℕ) : Sim (fun a r => Near A M h a r 0 1) (ld cc n) (ld cc' n) := by
  intro r hr
  unfold ld at hr ⊢
  rcases e : cc'[n]? with _ | r' <;> rw [e] at hr <;> simp at hr
  subst hr
  have hn : n < cc.length := by
    rw [hs.1]; exact (List.getElem?_eq_some_iff.1 e).1
  have e2 : cc[n]? = some cc[n] := List.getElem?_eq_getElem hn
  rw [e2]
  exact ⟨_, rfl, hs.2 n _ _ e2 e⟩

theorem st_sim (E : Env A M h b) (hd : Dst A M h t ch ch') {n : ℕ} {a : F} {r κ m : ℝ} (hn : Near A M h a r κ m) (hκ : κ ≤ 300)
    (hm : m ≤ 40) : Sim (Dst A M h t) (st ch n a) (st ch' n r) := by
  intro c hc
  unfold st at hc ⊢
  split at hc
  · rename_i hlt
    rw [hd.1, if_pos hlt]
    cases hc
    refine ⟨_, rfl, by simp [hd.1], ?_⟩
    intro k a' r' h1 h2
    by_cases e : n = k
    · subst e
      rw [List.getElem?_set_self (by rw [hd.1]; exact hlt)] at h1
      rw [List.getElem?_set_self hlt] at h2
      cases h1
      cases h2
      exact Or.inl (hn.mono E hκ hm)
    · rw [List.getElem?_set_ne e] at h1 h2
      exact hd.2 k a' r' h1 h2
  · cases hc

theorem radLoop_sim {mid : Bool} {ido l1 : ℕ} {bA bM : ℕ → List F → Out (List F)} {bB : ℕ → ℕ → List F → Out (List F)}
    {bA' bM' : ℕ → List ℝ → Out (List ℝ)} {bB' : ℕ → ℕ → List ℝ → Out (List ℝ)}
    (hA : ∀ k ch ch', k < l1 → Dst A M h t ch ch' → Sim (Dst A M h t) (bA k ch) (bA' k ch'))
    (hM : ∀ k ch ch', k < l1 → Dst A M h t ch ch' → Sim (Dst A M h t) (bM k ch) (bM' k ch'))
    (hB : ∀ k c ch ch', k < l1 → 0 < c → 2 * c < ido → Dst A M h t ch ch' →
      Sim (Dst A M h t) (bB k (2 * c) ch) (bB' k (2 * c) ch')) (hd : Dst A M h t ch ch') :
    Sim (Dst A M h t) (radLoop mid ido l1 bA bM bB ch) (Pocket.radLoop mid ido l1 bA' bM' bB' ch') := by
  unfold radLoop Pocket.radLoop
  refine (forN_sim l1 (fun i a b hi hab => hA i a b hi hab) hd).bind fun ch ch' hd => ?_
  refine Sim.bind (R := Dst A M h t) ?_ fun ch ch' hd => ?_
  · split
    · exact forN_sim l1 (fun i a b hi hab => hM i a b hi hab) hd
    · exact Sim.pure hd
  · by_cases hh : ido ≤ (if mid = true then 2 else 1)
    · rw [if_pos hh, if_pos hh]
      exact Sim.pure hd
    · rw [if_neg hh, if_neg hh]
      exact forN_sim l1 (fun k a b hk hab => forN_sim ((ido - 1) / 2) (fun i a b hi hab =>
        hB k (i + 1) a b hk (by omega) (by omega) hab) hab) hd

/-- the table of twiddle factors -/
def TwNear (A : FloatArithNeg F) (h : ℝ) (wa : List F) (ip ido : ℕ) : Prop := ∀ x c, x + 1 < ip → 0 < c → 2 * c < ido →
  ∃ a b, ld wa (rwx ido x (2 * c - 2)) = .ok a ∧ ld wa (rwx ido x (2 * c - 1)) = .ok b ∧
    Const A h a (w false (ido * ip) ((x + 1) * c)).re ∧ Const A h b (w false (ido * ip) ((x + 1) * c)).im

theorem mulCC_sim (E : Env A M h 2000) {ip ido l1 k c x : ℕ} {wa : List F} {wa' : List ℝ} (hw : TwNear A h wa ip ido)
    (hw' : Pocket.TwOk wa' ip ido) (hs : Src A M h cc cc') (hx : x + 1 < ip) (hc0 : 0 < c) (hc : 2 * c < ido) :
    Sim (fun (a : Cx F) z => NearC A M h a z 17 2) (mulCC wa cc ido l1 (2 * c) k x) (Pocket.mulCC wa' cc' ido l1 (2 * c) k x) := by
  obtain ⟨a, b, e1, e2, n1, n2⟩ := hw x c hx hc0 hc
  obtain ⟨e3, e4⟩ := hw' x c hx hc0 hc
  unfold mulCC Pocket.mulCC
  rw [e1, e2, e3, e4]
  simp only [Out.ok_bind]
  refine (ld_sim hs _).bind fun d d' hd => ?_
  refine (ld_sim hs _).bind fun f f' hf => ?_
  refine Sim.pure ⟨?_, ?_⟩
  · exact ((hd.mul' E n1 (by norm_num)).add E (hf.mul' E n2 (by norm_num)) (by norm_num)).mono E (by norm_num) (by norm_num)
  · exact ((hf.mul' E n1 (by norm_num)).sub E (hd.mul' E n2 (by norm_num)) (by norm_num)).mono E (by norm_num) (by norm_num)

theorem mulCH_sim (E : Env A M h 2000) {ip ido l1 k c x : ℕ} {wa : List F} {wa' : List ℝ} (hw : TwNear A h wa ip ido)
    (hw' : Pocket.TwOk wa' ip ido) {d : Cx F} {d' : ℂ} {κ₁ m₁ κ₂ m₂ : ℝ} (hx : x + 1 < ip) (hc0 : 0 < c) (hc : 2 * c < ido)
    (hd : Dst A M h t ch ch') (h1 : Near A M h d.re d'.re κ₁ m₁) (h2 : Near A M h d.im d'.im κ₂ m₂) 
    (k1 : κ₁ ≤ 100) (k2 : κ₂ ≤ 100) (g1 : m₁ ≤ 10) (g2 : m₂ ≤ 10) :
    Sim (Dst A M h t) (mulCH wa ido l1 (2 * c) k x d ch) (Pocket.mulCH wa' ido l1 (2 * c) k x d' ch') := by
  obtain ⟨a, b, e1, e2, n1, n2⟩ := hw x c hx hc0 hc
  obtain ⟨e3, e4⟩ := hw' x c hx hc0 hc
  unfold mulCH Pocket.mulCH
  rw [e1, e2, e3, e4]
  simp only [Out.ok_bind]
  replace h1 := h1.mono E k1 g1
  replace h2 := h2.mono E k2 g2
  refine (st_sim E hd ((h2.mul' E n1 (by norm_num)).add E (h1.mul' E n2 (by norm_num)) (by norm_num)) (by norm_num)
    (by norm_num)).bind fun ch ch' hd => ?_
  exact st_sim E hd ((h1.mul' E n1 (by norm_num)).sub E (h2.mul' E n2 (by norm_num)) (by norm_num)) (by norm_num)
    (by norm_num)

end Verif.PocketF
