import Verif.Lemmas.Ownership

/-! # Polyphase filters: the invariant of Props/Ownership.lean -/

set_option linter.all false

namespace Verif
namespace Own

variable {α : Type}

/-- The block owned by each object. -/
def own (s : St α PolyObj) : ℕ → Option ℕ := fun i => (s.objs i).bind PolyObj.buf

/-- An object in memory stands for a slot. -/
def PolyRep (h : Heap α) (o : Option PolyObj) : Slot (List α × ℕ) → Prop
  | .dead => o = none
  | .selfMoved => ∃ p, o = some p ∧ p.view = none ∧ p.count = 1
  | .is v => ∃ p, o = some p ∧ h.contents p.buf = .ok v.1 ∧ asView h p.buf = .ok p.view ∧ p.count = v.2

def PInv (s : St α PolyObj) (S : ℕ → Slot (List α × ℕ)) : Prop :=
  WF s.heap (own s) ∧ ∀ i, PolyRep s.heap (s.objs i) (S i)

theorem asView_same {h h' : Heap α} {o : Option ℕ} (hs : Same h h' o) : asView h' o = asView h o := by
  unfold asView
  rw [hs.contents]

theorem PolyRep.frame {h h' : Heap α} {o : Option PolyObj} {σ : Slot (List α × ℕ)} (hr : PolyRep h o σ)
    (hs : Same h h' (o.bind PolyObj.buf)) : PolyRep h' o σ := by
  cases σ with
  | dead => exact hr
  | selfMoved => exact hr
  | is v =>
    obtain ⟨p, rfl, hc, hv, hn⟩ := hr
    have hs' : Same h h' p.buf := hs
    exact ⟨p, rfl, by rw [hs'.contents, hc], by rw [asView_same hs', hv], hn⟩

theorem own_update (h : Heap α) (objs : ℕ → Option PolyObj) (i : ℕ) (o : Option PolyObj) :
    own (⟨h, Function.update objs i o⟩ : St α PolyObj) = Function.update (fun i => (objs i).bind PolyObj.buf) i (o.bind PolyObj.buf) := by
  funext k
  unfold own
  by_cases hk : k = i
  · subst hk; simp
  · simp [Function.update_of_ne hk]

theorem PInv.update {s : St α PolyObj} {S : ℕ → Slot (List α × ℕ)} (hi : PInv s S) {h' : Heap α} {i : ℕ} {o : Option PolyObj}
    {σ : Slot (List α × ℕ)} (w : WF h' (Function.update (own s) i (o.bind PolyObj.buf))) (hs : ∀ j, j ≠ i → Same s.heap h' (own s j))
    (hr : PolyRep h' o σ) : PInv (⟨h', Function.update s.objs i o⟩ : St α PolyObj) (Function.update S i σ) := by
  refine ⟨?_, fun k => ?_⟩
  · rw [own_update]; exact w
  · by_cases hk : k = i
    · subst hk; simpa using hr
    · simp only [Function.update_of_ne hk]
      exact (hi.2 k).frame (hs k hk)

theorem PInv.init : PInv (St.init : St α PolyObj) (fun _ => .dead) := by
  refine ⟨⟨fun b _ => rfl, ?_, ?_, ?_⟩, fun i => rfl⟩
  · intro i b h; simp [own, St.init] at h
  · intro i j b h; simp [own, St.init] at h
  · intro b h; simp [St.init, Heap.empty] at h

theorem PInv.dead {s : St α PolyObj} {S : ℕ → Slot (List α × ℕ)} (hi : PInv s S) {i : ℕ} (h : S i = .dead) : s.objs i = none := by
  have := hi.2 i
  rw [h] at this
  exact this

theorem PInv.alive {s : St α PolyObj} {S : ℕ → Slot (List α × ℕ)} (hi : PInv s S) {i : ℕ} (h : S i ≠ .dead) : ∃ p, s.objs i = some p := by
  have := hi.2 i
  cases hS : S i with
  | dead => exact absurd hS h
  | selfMoved => rw [hS] at this; exact ⟨_, this.choose_spec.1⟩
  | is v => rw [hS] at this; exact ⟨_, this.choose_spec.1⟩

theorem get_some {O : Type} {s : St α O} {i : ℕ} {p : O} (h : s.objs i = some p) : s.get i = .ok p := by
  simp [St.get, h]

theorem polyMake_inv {s : St α PolyObj} {S : ℕ → Slot (List α × ℕ)} (hi : PInv s S) {i : ℕ} (hd : S i = .dead) (l : List α) (n : ℕ) :
    ∃ s', polyMake s i l n = .ok s' ∧ PInv s' (Function.update S i (.is (l, n))) := by
  have ho : own s i = none := by simp [own, hi.dead hd]
  obtain ⟨w, c, hs⟩ := vecNew_spec hi.1 ho l
  obtain ⟨v, hv, hr⟩ := asView_ok c
  refine ⟨_, by simp only [polyMake, hv, Out.ok_bind, Out.pure_def]; rfl, ?_⟩
  exact hi.update w (fun j _ => hs j) ⟨_, rfl, c, hv, rfl⟩

theorem polyCopy_inv {s : St α PolyObj} {S : ℕ → Slot (List α × ℕ)} (hi : PInv s S) {i j : ℕ} {v : List α × ℕ} (hd : S i = .dead)
    (hj : S j = .is v) : ∃ s', polyCopy s i j = .ok s' ∧ PInv s' (Function.update S i (.is v)) := by
  have hr := hi.2 j
  rw [hj] at hr
  obtain ⟨p, hp, hc, hv, hn⟩ := hr
  obtain ⟨s', e, hs'⟩ := polyMake_inv hi hd v.1 v.2
  refine ⟨s', ?_, hs'⟩
  rw [← e]
  simp only [polyCopy, polyMake, get_some hp, Out.ok_bind, hc, hn]

/-- The state after a buffer changed hands. -/
theorem moved_inv {s : St α PolyObj} {S : ℕ → Slot (List α × ℕ)} (hi : PInv s S) {i j : ℕ} (hij : i ≠ j) (ho : own s i = none)
    {v : List α × ℕ} (hj : S j = .is v) {p : PolyObj} (hp : s.objs j = some p) :
    PInv (⟨s.heap, Function.update (Function.update s.objs i (some p)) j (some ⟨none, none, 1⟩)⟩ : St α PolyObj)
      (Function.update (Function.update S i (.is v)) j (.is ([], 1))) := by
  have hr := hi.2 j
  rw [hj] at hr
  obtain ⟨p', hp', hc, hv, hn⟩ := hr
  rw [hp] at hp'
  obtain rfl := Option.some.inj hp'
  refine ⟨?_, fun k => ?_⟩
  · rw [own_update]
    have h2 : (fun k => (Function.update s.objs i (some p) k).bind PolyObj.buf) = Function.update (own s) i (own s j) := by
      have := own_update s.heap s.objs i (some p)
      unfold own at this
      rw [show own s j = p.buf by simp [own, hp]]
      exact this
    rw [h2]
    exact handover hi.1 hij ho
  · by_cases hkj : k = j
    · subst hkj
      simp only [Function.update_self]
      exact ⟨_, rfl, rfl, rfl, rfl⟩
    · simp only [Function.update_of_ne hkj]
      by_cases hki : k = i
      · subst hki
        simp only [Function.update_self]
        exact ⟨p, rfl, hc, hv, hn⟩
      · simp only [Function.update_of_ne hki]
        exact hi.2 k

theorem polyMove_inv {s : St α PolyObj} {S : ℕ → Slot (List α × ℕ)} (hi : PInv s S) {i j : ℕ} {v : List α × ℕ} (hd : S i = .dead)
    (hj : S j = .is v) :
    ∃ s', polyMove s i j = .ok s' ∧ PInv s' (Function.update (Function.update S i (.is v)) j (.is ([], 1))) := by
  have hij : i ≠ j := by rintro rfl; rw [hd] at hj; cases hj
  obtain ⟨p, hp⟩ := hi.alive (i := j) (by rw [hj]; simp)
  refine ⟨_, ?_, moved_inv hi hij (by simp [own, hi.dead hd]) hj hp⟩
  simp only [polyMove, hp, Out.ok_bind, St.set, St.get, Function.update_self, Function.update_of_ne hij, Function.update_of_ne hij.symm, Out.pure_def, Out.ok.injEq]
  congr 1
  funext k
  by_cases hkj : k = j
  · subst hkj; simp
  · by_cases hki : k = i
    · subst hki; simp [hij]
    · simp [hkj, hki]

theorem polyAssign_inv {s : St α PolyObj} {S : ℕ → Slot (List α × ℕ)} (hi : PInv s S) (r : Bool) {i j : ℕ} {v : List α × ℕ}
    (hl : S i ≠ .dead) (hj : S j = .is v) :
    ∃ s', polyAssign s r i j = .ok s' ∧ PInv s' (Function.update S i (.is v)) := by
  have hr := hi.2 j
  rw [hj] at hr
  obtain ⟨p, hp, hc, hv, hn⟩ := hr
  by_cases hij : i = j
  · subst hij
    refine ⟨⟨s.heap, Function.update s.objs i (some p)⟩, ?_, ?_⟩
    · simp [polyAssign, hp, St.set, St.get, hv]
    · have h1 : Function.update s.objs i (some p) = s.objs := by rw [← hp, Function.update_eq_self]
      have h2 : Function.update S i (.is v) = S := by rw [← hj, Function.update_eq_self]
      rw [h1, h2]
      exact hi
  · obtain ⟨q, hq⟩ := hi.alive hl
    obtain ⟨b, h', e, w, c, hs⟩ := vecAssign_spec hi.1 i r v.1
    rw [show own s i = q.buf by simp [own, hq]] at e
    obtain ⟨vw, hvw, hrd⟩ := asView_ok c
    refine ⟨⟨h', Function.update s.objs i (some ⟨b, vw, p.count⟩)⟩, ?_, hi.update w hs ⟨_, rfl, c, hvw, hn⟩⟩
    have hji : j ≠ i := fun h => hij h.symm
    simp [polyAssign, hq, hp, hij, hc, e, St.set, St.get, Function.update_of_ne hji, hp, hvw]

theorem polyMoveAssign_inv {s : St α PolyObj} {S : ℕ → Slot (List α × ℕ)} (hi : PInv s S) (keep : Bool) {i j : ℕ} (hij : i ≠ j)
    {v : List α × ℕ} (hl : S i ≠ .dead) (hj : S j = .is v) :
    ∃ s', polyMoveAssign s keep i j = .ok s' ∧ PInv s' (Function.update (Function.update S i (.is v)) j (.is ([], 1))) := by
  obtain ⟨q, hq⟩ := hi.alive hl
  obtain ⟨p, hp⟩ := hi.alive (i := j) (by rw [hj]; simp)
  obtain ⟨h1, e1, w1, s1⟩ := vecFree_spec hi.1 i
  rw [show own s i = q.buf by simp [own, hq]] at e1
  -- an intermediate state in which `i` does not exist
  have hmid : PInv (⟨h1, Function.update s.objs i none⟩ : St α PolyObj) (Function.update S i .dead) :=
    hi.update w1 s1 rfl
  have hfin := moved_inv hmid hij (by simp [own]) (v := v) (p := p)
    (by rw [Function.update_of_ne hij.symm]; exact hj) (by simp only [Function.update_of_ne hij.symm]; exact hp)
  simp only [Function.update_idem] at hfin
  refine ⟨_, ?_, hfin⟩
  simp only [polyMoveAssign, hp, hq, Out.ok_bind, if_neg hij, e1, St.set, St.get, Function.update_self,
    Function.update_of_ne hij, Function.update_of_ne hij.symm, Out.pure_def, Out.ok.injEq]
  congr 1
  funext k
  by_cases hkj : k = j
  · subst hkj; simp
  · by_cases hki : k = i
    · subst hki; simp [hij]
    · simp [hkj, hki]

theorem polySelfMove_inv {s : St α PolyObj} {S : ℕ → Slot (List α × ℕ)} (hi : PInv s S) (keep : Bool) {i : ℕ}
    (hl : S i ≠ .dead) : ∃ s', polyMoveAssign s keep i i = .ok s' ∧ PInv s' (Function.update S i .selfMoved) := by
  obtain ⟨q, hq⟩ := hi.alive hl
  cases keep with
  | true =>
    refine ⟨⟨s.heap, Function.update s.objs i (some ⟨q.buf, none, 1⟩)⟩, ?_, hi.update ?_ (fun _ _ _ _ => rfl) ⟨_, rfl, rfl, rfl⟩⟩
    · simp [polyMoveAssign, hq, St.set, St.get]
    · have : Function.update (own s) i (some (⟨q.buf, none, 1⟩ : PolyObj) |>.bind PolyObj.buf) = own s := by
        have : own s i = q.buf := by simp [own, hq]
        simp only [Option.bind_some]
        rw [← this, Function.update_eq_self]
      rw [this]
      exact hi.1
  | false =>
    obtain ⟨h1, e1, w1, s1⟩ := vecFree_spec hi.1 i
    rw [show own s i = q.buf by simp [own, hq]] at e1
    refine ⟨⟨h1, Function.update s.objs i (some ⟨none, none, 1⟩)⟩, ?_, hi.update w1 s1 ⟨_, rfl, rfl, rfl⟩⟩
    simp [polyMoveAssign, hq, St.set, St.get, e1]

theorem polyDestroy_inv {s : St α PolyObj} {S : ℕ → Slot (List α × ℕ)} (hi : PInv s S) {i : ℕ}
    (hl : S i ≠ .dead) : ∃ s', polyDestroy s i = .ok s' ∧ PInv s' (Function.update S i .dead) := by
  obtain ⟨q, hq⟩ := hi.alive hl
  obtain ⟨h1, e1, w1, s1⟩ := vecFree_spec hi.1 i
  rw [show own s i = q.buf by simp [own, hq]] at e1
  refine ⟨⟨h1, Function.update s.objs i none⟩, ?_, hi.update w1 s1 rfl⟩
  simp [polyDestroy, get_some hq, e1]

theorem polyWrite_inv {s : St α PolyObj} {S : ℕ → Slot (List α × ℕ)} (hi : PInv s S) {i : ℕ} {v : List α × ℕ} (hS : S i = .is v)
    {k : ℕ} (hk : k < v.1.length) (x : α) :
    ∃ s', polyWrite s i k x = .ok s' ∧ PInv s' (Function.update S i (.is (v.1.set k x, v.2))) := by
  have hr := hi.2 i
  rw [hS] at hr
  obtain ⟨p, hp, hc, hv, hn⟩ := hr
  have hb : own s i = p.buf := by simp [own, hp]
  have hm : mkView p.buf 0 v.1.length = .ok p.view := by
    rw [← hv]
    simp only [asView, hc, Out.ok_bind]
  obtain ⟨h', e, w, c, hs⟩ := write_spec (i := i) (l₁ := []) (l₂ := v.1) (l₃ := []) hi.1 (by simpa [hb] using hc)
    (v := p.view) (by simpa [hb] using hm) hk x
  rw [hb] at c
  simp only [List.nil_append, List.append_nil] at c
  have hfin := hi.update (h' := h') (i := i) (o := some p) (σ := .is (v.1.set k x, v.2))
    (by simp only [Option.bind_some]; rw [← hb, Function.update_eq_self]; exact w) hs
    ⟨p, rfl, c, by simp only [asView, c, Out.ok_bind, List.length_set]; exact hm, hn⟩
  rw [show Function.update s.objs i (some p) = s.objs by rw [← hp, Function.update_eq_self]] at hfin
  refine ⟨_, ?_, hfin⟩
  simp [polyWrite, get_some hp, e]

theorem polyStep_inv {s : St α PolyObj} {S S' : ℕ → Slot (List α × ℕ)} (hi : PInv s S) (op : Op α (List α × ℕ))
    (hop : op.spec ([], 1) polyUpd S = some S') : ∃ s', polyStep s op = .ok s' ∧ PInv s' S' := by
  cases op with
  | make i v =>
    simp only [Op.spec] at hop
    split at hop <;> simp only [Option.some.injEq, reduceCtorEq] at hop
    subst hop
    exact polyMake_inv hi ‹_› v.1 v.2
  | copy i j =>
    simp only [Op.spec] at hop
    split at hop <;> simp only [Option.some.injEq, reduceCtorEq] at hop
    subst hop
    exact polyCopy_inv hi ‹_› ‹_›
  | move i j =>
    simp only [Op.spec] at hop
    split at hop <;> simp only [Option.some.injEq, reduceCtorEq] at hop
    subst hop
    exact polyMove_inv hi ‹_› ‹_›
  | assign r i j =>
    simp only [Op.spec] at hop
    split at hop <;> simp only [Option.some.injEq, reduceCtorEq] at hop
    subst hop
    exact polyAssign_inv hi r (by assumption) ‹_›
  | moveAssign k i j =>
    simp only [Op.spec] at hop
    split at hop <;> try simp only [Option.some.injEq, reduceCtorEq] at hop
    split_ifs at hop with hij <;> simp only [Option.some.injEq] at hop <;> subst hop
    · subst hij
      exact polySelfMove_inv hi k (by assumption)
    · exact polyMoveAssign_inv hi k hij (by assumption) ‹_›
  | destroy i =>
    simp only [Op.spec] at hop
    split at hop <;> simp only [Option.some.injEq, reduceCtorEq] at hop
    subst hop
    exact polyDestroy_inv hi (by assumption)
  | write i u k x =>
    simp only [Op.spec] at hop
    split at hop
    · rename_i v hv
      simp only [polyUpd] at hop
      split_ifs at hop with hk
      · simp only [Option.map_some, Option.some.injEq] at hop
        subst hop
        exact polyWrite_inv hi hv hk x
      · simp at hop
    · simp at hop

theorem poly_history {ops : List (Op α (List α × ℕ))} {S : ℕ → Slot (List α × ℕ)} (h : history ([], 1) polyUpd ops = some S) :
    ∃ s, ops.foldlM polyStep (St.init : St α PolyObj) = .ok s ∧ PInv s S := by
  unfold history at h
  suffices ∀ (s₀ : St α PolyObj) S₀, PInv s₀ S₀ → ops.foldlM (Op.spec ([], 1) polyUpd) S₀ = some S →
      ∃ s, ops.foldlM polyStep s₀ = .ok s ∧ PInv s S from this _ _ PInv.init h
  clear h
  induction ops with
  | nil =>
    intro s₀ S₀ hi h
    simp only [List.foldlM_nil, Option.pure_def, Option.some.injEq] at h
    subst h
    exact ⟨s₀, rfl, hi⟩
  | cons op ops ih =>
    intro s₀ S₀ hi h
    rw [List.foldlM_cons] at h
    obtain ⟨S₁, h1, h2⟩ := Option.bind_eq_some_iff.mp h
    obtain ⟨s₁, e1, hi1⟩ := polyStep_inv hi op h1
    obtain ⟨s, e, hs⟩ := ih s₁ S₁ hi1 h2
    exact ⟨s, by rw [List.foldlM_cons, e1]; exact e, hs⟩

end Own
end Verif
