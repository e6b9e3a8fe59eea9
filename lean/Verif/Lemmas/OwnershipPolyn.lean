import Verif.Lemmas.OwnershipPoly

/-! # Factored polynomials: the invariant of Props/Ownership.lean -/

set_option linter.all false

namespace Verif
namespace Own

variable {α : Type}

def ownN (s : St α PolynObj) : ℕ → Option ℕ := fun i => (s.objs i).bind PolynObj.mem

def PolynRep (h : Heap α) (o : Option PolynObj) : Slot (List α × List α) → Prop
  | .dead => o = none
  | .selfMoved => False
  | .is v => ∃ p, o = some p ∧ h.contents p.mem = .ok (v.1 ++ v.2) ∧ mkView p.mem 0 v.1.length = .ok p.real ∧
      mkView p.mem v.1.length v.2.length = .ok p.cplx

def NInv (s : St α PolynObj) (S : ℕ → Slot (List α × List α)) : Prop :=
  WF s.heap (ownN s) ∧ ∀ i, PolynRep s.heap (s.objs i) (S i)

theorem mkView_size {o : Option ℕ} {off len : ℕ} {v : Option PView} (h : mkView o off len = .ok v) : viewSize v = len := by
  unfold mkView at h
  split_ifs at h with hl
  · simp only [Out.ok.injEq] at h; subst h; simp [viewSize, hl]
  · cases o with
    | none => simp at h
    | some b => simp only [Out.ok.injEq] at h; subst h; rfl

theorem PolynRep.frame {h h' : Heap α} {o : Option PolynObj} {σ : Slot (List α × List α)} (hr : PolynRep h o σ)
    (hs : Same h h' (o.bind PolynObj.mem)) : PolynRep h' o σ := by
  cases σ with
  | dead => exact hr
  | selfMoved => exact hr
  | is v =>
    obtain ⟨p, rfl, hc, hv⟩ := hr
    have hs' : Same h h' p.mem := hs
    exact ⟨p, rfl, by rw [hs'.contents, hc], hv⟩

theorem ownN_update (h : Heap α) (objs : ℕ → Option PolynObj) (i : ℕ) (o : Option PolynObj) :
    ownN (⟨h, Function.update objs i o⟩ : St α PolynObj) = Function.update (fun i => (objs i).bind PolynObj.mem) i (o.bind PolynObj.mem) := by
  funext k
  unfold ownN
  by_cases hk : k = i
  · subst hk; simp
  · simp [Function.update_of_ne hk]

theorem NInv.update {s : St α PolynObj} {S : ℕ → Slot (List α × List α)} (hi : NInv s S) {h' : Heap α} {i : ℕ} {o : Option PolynObj}
    {σ : Slot (List α × List α)} (w : WF h' (Function.update (ownN s) i (o.bind PolynObj.mem))) (hs : ∀ j, j ≠ i → Same s.heap h' (ownN s j))
    (hr : PolynRep h' o σ) : NInv (⟨h', Function.update s.objs i o⟩ : St α PolynObj) (Function.update S i σ) := by
  refine ⟨?_, fun k => ?_⟩
  · rw [ownN_update]; exact w
  · by_cases hk : k = i
    · subst hk; simpa using hr
    · simp only [Function.update_of_ne hk]
      exact (hi.2 k).frame (hs k hk)

theorem NInv.init : NInv (St.init : St α PolynObj) (fun _ => .dead) := by
  refine ⟨⟨fun b _ => rfl, ?_, ?_, ?_⟩, fun i => rfl⟩
  · intro i b h; simp [ownN, St.init] at h
  · intro i j b h; simp [ownN, St.init] at h
  · intro b h; simp [St.init, Heap.empty] at h

theorem NInv.dead {s : St α PolynObj} {S : ℕ → Slot (List α × List α)} (hi : NInv s S) {i : ℕ} (h : S i = .dead) : s.objs i = none := by
  have := hi.2 i
  rw [h] at this
  exact this

theorem NInv.alive {s : St α PolynObj} {S : ℕ → Slot (List α × List α)} (hi : NInv s S) {i : ℕ} (h : S i ≠ .dead) : ∃ p, s.objs i = some p := by
  have := hi.2 i
  cases hS : S i with
  | dead => exact absurd hS h
  | selfMoved => rw [hS] at this; exact this.elim
  | is v => rw [hS] at this; exact ⟨_, this.choose_spec.1⟩

theorem polynMake_inv {s : St α PolynObj} {S : ℕ → Slot (List α × List α)} (hi : NInv s S) {i : ℕ} (hd : S i = .dead) (r c : List α) :
    ∃ s', polynMake s i r c = .ok s' ∧ NInv s' (Function.update S i (.is (r, c))) := by
  have ho : ownN s i = none := by simp [ownN, hi.dead hd]
  obtain ⟨w, hc, hs⟩ := vecNew_spec hi.1 ho (r ++ c)
  obtain ⟨v1, hv1, -⟩ := mkView_ok (l₁ := []) (l₂ := r) (l₃ := c) hc
  obtain ⟨v2, hv2, -⟩ := mkView_ok (l₁ := r) (l₂ := c) (l₃ := []) (by simpa using hc)
  simp only [List.length_nil] at hv1
  refine ⟨⟨(vecNew s.heap (r ++ c)).2, Function.update s.objs i (some ⟨(vecNew s.heap (r ++ c)).1, v1, v2⟩)⟩, ?_, ?_⟩
  · simp only [polynMake, hv1, hv2, Out.ok_bind, Out.pure_def]
  · exact hi.update w (fun j _ => hs j) ⟨_, rfl, hc, hv1, hv2⟩

theorem polynCopy_inv {s : St α PolynObj} {S : ℕ → Slot (List α × List α)} (hi : NInv s S) {i j : ℕ} {v : List α × List α} (hd : S i = .dead)
    (hj : S j = .is v) : ∃ s', polynCopy s i j = .ok s' ∧ NInv s' (Function.update S i (.is v)) := by
  have hr := hi.2 j
  rw [hj] at hr
  obtain ⟨p, hp, hc, hv1, hv2⟩ := hr
  obtain ⟨s', e, hs'⟩ := polynMake_inv hi hd v.1 v.2
  refine ⟨s', ?_, hs'⟩
  rw [← e]
  simp only [polynCopy, polynMake, get_some hp, Out.ok_bind, hc, mkView_size hv1, mkView_size hv2]

theorem movedN_inv {s : St α PolynObj} {S : ℕ → Slot (List α × List α)} (hi : NInv s S) {i j : ℕ} (hij : i ≠ j) (ho : ownN s i = none)
    {v : List α × List α} (hj : S j = .is v) {p : PolynObj} (hp : s.objs j = some p) :
    NInv (⟨s.heap, Function.update (Function.update s.objs i (some p)) j (some ⟨none, none, none⟩)⟩ : St α PolynObj)
      (Function.update (Function.update S i (.is v)) j (.is ([], []))) := by
  have hr := hi.2 j
  rw [hj] at hr
  obtain ⟨p', hp', hc⟩ := hr
  rw [hp] at hp'
  obtain rfl := Option.some.inj hp'
  refine ⟨?_, fun k => ?_⟩
  · rw [ownN_update]
    have h2 : (fun k => (Function.update s.objs i (some p) k).bind PolynObj.mem) = Function.update (ownN s) i (ownN s j) := by
      have := ownN_update s.heap s.objs i (some p)
      unfold ownN at this
      rw [show ownN s j = p.mem by simp [ownN, hp]]
      exact this
    rw [h2]
    exact handover hi.1 hij ho
  · by_cases hkj : k = j
    · subst hkj
      simp only [Function.update_self]
      exact ⟨_, rfl, rfl, rfl, rfl⟩
    · simp only [Function.update_of_ne hkj]
      by_cases hki : k = i
      · subst hki
        simp only [Function.update_self]
        exact ⟨p, rfl, hc⟩
      · simp only [Function.update_of_ne hki]
        exact hi.2 k

theorem polynMove_inv {s : St α PolynObj} {S : ℕ → Slot (List α × List α)} (hi : NInv s S) {i j : ℕ} {v : List α × List α} (hd : S i = .dead)
    (hj : S j = .is v) :
    ∃ s', polynMove s i j = .ok s' ∧ NInv s' (Function.update (Function.update S i (.is v)) j (.is ([], []))) := by
  have hij : i ≠ j := by rintro rfl; rw [hd] at hj; cases hj
  have hr := hi.2 j
  rw [hj] at hr
  obtain ⟨p, hp, hc, hv1, hv2⟩ := hr
  refine ⟨_, ?_, movedN_inv hi hij (by simp [ownN, hi.dead hd]) hj hp⟩
  simp only [polynMove, hp, Out.ok_bind, St.set, St.get, Function.update_self, Function.update_of_ne hij, Function.update_of_ne hij.symm,
    Out.pure_def, Out.ok.injEq, mkView_size hv1, mkView_size hv2, hv1, hv2]
  congr 1
  funext k
  by_cases hkj : k = j
  · subst hkj; simp
  · by_cases hki : k = i
    · subst hki; simp [hij]
    · simp [hkj, hki]

theorem polynAssign_inv {s : St α PolynObj} {S : ℕ → Slot (List α × List α)} (hi : NInv s S) (r : Bool) {i j : ℕ} {v : List α × List α}
    (hl : S i ≠ .dead) (hj : S j = .is v) :
    ∃ s', polynAssignBody s r i j = .ok s' ∧ NInv s' (Function.update S i (.is v)) := by
  have hr := hi.2 j
  rw [hj] at hr
  obtain ⟨p, hp, hc, hv1, hv2⟩ := hr
  by_cases hij : i = j
  · subst hij
    refine ⟨⟨s.heap, Function.update s.objs i (some p)⟩, ?_, ?_⟩
    · simp [polynAssignBody, hp, St.set, St.get, mkView_size hv1, mkView_size hv2, hv1, hv2]
    · have h1 : Function.update s.objs i (some p) = s.objs := by rw [← hp, Function.update_eq_self]
      have h2 : Function.update S i (.is v) = S := by rw [← hj, Function.update_eq_self]
      rw [h1, h2]
      exact hi
  · obtain ⟨q, hq⟩ := hi.alive hl
    obtain ⟨b, h', e, w, c, hs⟩ := vecAssign_spec hi.1 i r (v.1 ++ v.2)
    rw [show ownN s i = q.mem by simp [ownN, hq]] at e
    obtain ⟨w1, hw1, -⟩ := mkView_ok (l₁ := []) (l₂ := v.1) (l₃ := v.2) c
    obtain ⟨w2, hw2, -⟩ := mkView_ok (l₁ := v.1) (l₂ := v.2) (l₃ := []) (by simpa using c)
    simp only [List.length_nil] at hw1
    refine ⟨⟨h', Function.update s.objs i (some ⟨b, w1, w2⟩)⟩, ?_, hi.update w hs ⟨_, rfl, c, hw1, hw2⟩⟩
    have hji : j ≠ i := fun h => hij h.symm
    simp [polynAssignBody, hq, hij, hc, e, St.set, St.get, Function.update_of_ne hji, hp, mkView_size hv1, mkView_size hv2, hw1, hw2]

theorem polynMoveAssign_inv {s : St α PolynObj} {S : ℕ → Slot (List α × List α)} (hi : NInv s S) {i j : ℕ} (hij : i ≠ j)
    {v : List α × List α} (hl : S i ≠ .dead) (hj : S j = .is v) :
    ∃ s', polynMoveAssignBody s i j = .ok s' ∧ NInv s' (Function.update (Function.update S i (.is v)) j (.is ([], []))) := by
  obtain ⟨q, hq⟩ := hi.alive hl
  have hr := hi.2 j
  rw [hj] at hr
  obtain ⟨p, hp, hc, hv1, hv2⟩ := hr
  obtain ⟨h1, e1, w1, s1⟩ := vecFree_spec hi.1 i
  rw [show ownN s i = q.mem by simp [ownN, hq]] at e1
  have hmid : NInv (⟨h1, Function.update s.objs i none⟩ : St α PolynObj) (Function.update S i .dead) :=
    hi.update w1 s1 rfl
  have hfin := movedN_inv hmid hij (by simp [ownN]) (v := v) (p := p)
    (by rw [Function.update_of_ne hij.symm]; exact hj) (by simp only [Function.update_of_ne hij.symm]; exact hp)
  simp only [Function.update_idem] at hfin
  refine ⟨_, ?_, hfin⟩
  simp only [polynMoveAssignBody, hp, hq, Out.ok_bind, e1, St.set, St.get, Function.update_self,
    Function.update_of_ne hij, Function.update_of_ne hij.symm, Out.pure_def, Out.ok.injEq, mkView_size hv1, mkView_size hv2, hv1, hv2]
  congr 1
  funext k
  by_cases hkj : k = j
  · subst hkj; simp
  · by_cases hki : k = i
    · subst hki; simp [hij]
    · simp [hkj, hki]

theorem polynDestroy_inv {s : St α PolynObj} {S : ℕ → Slot (List α × List α)} (hi : NInv s S) {i : ℕ}
    (hl : S i ≠ .dead) : ∃ s', polynDestroy s i = .ok s' ∧ NInv s' (Function.update S i .dead) := by
  obtain ⟨q, hq⟩ := hi.alive hl
  obtain ⟨h1, e1, w1, s1⟩ := vecFree_spec hi.1 i
  rw [show ownN s i = q.mem by simp [ownN, hq]] at e1
  refine ⟨⟨h1, Function.update s.objs i none⟩, ?_, hi.update w1 s1 rfl⟩
  simp [polynDestroy, get_some hq, e1]

theorem polynWrite_inv {s : St α PolynObj} {S : ℕ → Slot (List α × List α)} (hi : NInv s S) {i : ℕ} {v v' : List α × List α} (hS : S i = .is v)
    {u : Bool} {k : ℕ} {x : α} (hu : polynUpd v u k x = some v') :
    ∃ s', polynWrite s i u k x = .ok s' ∧ NInv s' (Function.update S i (.is v')) := by
  have hr := hi.2 i
  rw [hS] at hr
  obtain ⟨p, hp, hc, hv1, hv2⟩ := hr
  have hb : ownN s i = p.mem := by simp [ownN, hp]
  have hself : Function.update s.objs i (some p) = s.objs := by rw [← hp, Function.update_eq_self]
  cases u with
  | true =>
    simp only [polynUpd, if_true] at hu
    split_ifs at hu with hk
    simp only [Option.some.injEq] at hu
    subst hu
    obtain ⟨h', e, w, c, hs⟩ := write_spec (i := i) (l₁ := v.1) (l₂ := v.2) (l₃ := []) hi.1 (by simpa [hb] using hc)
      (v := p.cplx) (by simpa [hb] using hv2) hk x
    rw [hb] at c
    simp only [List.append_nil] at c
    have hfin := hi.update (h' := h') (i := i) (o := some p) (σ := .is (v.1, v.2.set k x))
      (by simp only [Option.bind_some]; rw [← hb, Function.update_eq_self]; exact w) hs
      ⟨p, rfl, c, hv1, by simpa using hv2⟩
    rw [hself] at hfin
    exact ⟨_, by simp [polynWrite, get_some hp, e], hfin⟩
  | false =>
    simp only [polynUpd, Bool.false_eq_true, if_false] at hu
    split_ifs at hu with hk
    simp only [Option.some.injEq] at hu
    subst hu
    obtain ⟨h', e, w, c, hs⟩ := write_spec (i := i) (l₁ := []) (l₂ := v.1) (l₃ := v.2) hi.1 (by simpa [hb] using hc)
      (v := p.real) (by simpa [hb] using hv1) hk x
    rw [hb] at c
    simp only [List.nil_append] at c
    have hfin := hi.update (h' := h') (i := i) (o := some p) (σ := .is (v.1.set k x, v.2))
      (by simp only [Option.bind_some]; rw [← hb, Function.update_eq_self]; exact w) hs
      ⟨p, rfl, c, by simpa using hv1, by simpa using hv2⟩
    rw [hself] at hfin
    exact ⟨_, by simp [polynWrite, get_some hp, e], hfin⟩

theorem polynStep_inv {s : St α PolynObj} {S S' : ℕ → Slot (List α × List α)} (hi : NInv s S) (op : Op α (List α × List α))
    (hns : op.noSelfMove) (hop : op.spec ([], []) polynUpd S = some S') : ∃ s', polynStepRepaired s op = .ok s' ∧ NInv s' S' := by
  cases op with
  | make i v =>
    simp only [Op.spec] at hop
    split at hop <;> simp only [Option.some.injEq, reduceCtorEq] at hop
    subst hop
    exact polynMake_inv hi ‹_› v.1 v.2
  | copy i j =>
    simp only [Op.spec] at hop
    split at hop <;> simp only [Option.some.injEq, reduceCtorEq] at hop
    subst hop
    exact polynCopy_inv hi ‹_› ‹_›
  | move i j =>
    simp only [Op.spec] at hop
    split at hop <;> simp only [Option.some.injEq, reduceCtorEq] at hop
    subst hop
    exact polynMove_inv hi ‹_› ‹_›
  | assign r i j =>
    simp only [Op.spec] at hop
    split at hop <;> simp only [Option.some.injEq, reduceCtorEq] at hop
    subst hop
    exact polynAssign_inv hi r (by assumption) ‹_›
  | moveAssign k i j =>
    simp only [Op.spec] at hop
    split at hop <;> try simp only [Option.some.injEq, reduceCtorEq] at hop
    rw [if_neg hns] at hop
    simp only [Option.some.injEq] at hop
    subst hop
    exact polynMoveAssign_inv hi hns (by assumption) ‹_›
  | destroy i =>
    simp only [Op.spec] at hop
    split at hop <;> simp only [Option.some.injEq, reduceCtorEq] at hop
    subst hop
    exact polynDestroy_inv hi (by assumption)
  | write i u k x =>
    simp only [Op.spec] at hop
    split at hop
    · rename_i v hv
      obtain ⟨v', hv', rfl⟩ := Option.map_eq_some_iff.mp hop
      exact polynWrite_inv hi hv hv'
    · simp at hop

theorem polyn_history {ops : List (Op α (List α × List α))} {S : ℕ → Slot (List α × List α)} (hns : ∀ op ∈ ops, op.noSelfMove)
    (h : history ([], []) polynUpd ops = some S) :
    ∃ s, ops.foldlM polynStepRepaired (St.init : St α PolynObj) = .ok s ∧ NInv s S := by
  unfold history at h
  suffices ∀ (s₀ : St α PolynObj) S₀, NInv s₀ S₀ → ops.foldlM (Op.spec ([], []) polynUpd) S₀ = some S →
      ∃ s, ops.foldlM polynStepRepaired s₀ = .ok s ∧ NInv s S from this _ _ NInv.init h
  clear h
  induction ops with
  | nil =>
    intro s₀ S₀ hi h
    simp only [List.foldlM_nil, Option.pure_def, Option.some.injEq] at h
    subst h
    exact ⟨s₀, rfl, hi⟩
  | cons op ops ih =>
    intro s₀ S₀ hi h
    rw [List.foldlM_cons] at h
    obtain ⟨S₁, h1, h2⟩ := Option.bind_eq_some_iff.mp h
    obtain ⟨s₁, e1, hi1⟩ := polynStep_inv hi op (hns op (by simp)) h1
    obtain ⟨s, e, hs⟩ := ih (fun o ho => hns o (by simp [ho])) s₁ S₁ hi1 h2
    exact ⟨s, by rw [List.foldlM_cons, e1]; exact e, hs⟩

theorem polyn_constructs {ops : List (Op α (List α × List α))} (hc : ∀ op ∈ ops, op.constructs) (s : St α PolynObj) :
    ops.foldlM polynStep s = ops.foldlM polynStepRepaired s := by
  induction ops generalizing s with
  | nil => rfl
  | cons op ops ih =>
    rw [List.foldlM_cons, List.foldlM_cons]
    have h1 : polynStep s op = polynStepRepaired s op := by
      cases op with
      | assign r i j => exact (hc _ (List.mem_cons_self ..)).elim
      | moveAssign r i j => exact (hc _ (List.mem_cons_self ..)).elim
      | _ => rfl
    rw [h1]
    congr 1
    funext s'
    exact ih (fun o ho => hc o (by simp [ho])) s'

end Own
end Verif
