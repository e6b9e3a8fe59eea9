import Verif.Model.Signal
import Verif.Props.Numeric

/-!
# Properties C38–C40: signals as sequences, views, signal arithmetic
-/

set_option linter.unusedSectionVars false

namespace Verif

section signals
variable {α : Type}

/-- Specification: the objects are as before except that object `obj` now has the contents `s`. -/
def OnlyChanges (h : Objects α) (obj : ℕ) (s : List α) (h' : Objects α) : Prop :=
  h'.length = h.length ∧ h'[obj]? = some s ∧ ∀ k, k ≠ obj → h'[k]? = h[k]?

theorem rd_some {β : Type u} {a : List β} {i : ℕ} {x : β} (h : a[i]? = some x) : rd a (i : ℤ) = .ok x := by
  simp [rd, h]

theorem wr_only {h : Objects α} {obj : ℕ} {s : List α} (hs : h[obj]? = some s) (t : List α) :
    ∃ h', wr h (obj : ℤ) t = .ok h' ∧ OnlyChanges h obj t h' := by
  have hl : obj < h.length := by
    by_contra hc
    rw [List.getElem?_eq_none (by omega)] at hs
    cases hs
  refine ⟨h.set obj t, ?_, ?_, ?_, ?_⟩
  · simp [wr, hl]
  · simp
  · simp [hl]
  · intro k hk
    rw [List.getElem?_set_ne (Ne.symm hk)]

/-- **C38** insert: the other signal appears at the position, everything else is kept, in order. -/
theorem C38_insert (h : Objects α) (obj other pos : ℕ) (s t : List α) (hs : h[obj]? = some s) (ht : h[other]? = some t)
    (hne : obj ≠ other) (hp : pos ≤ s.length) :
    ∃ h', Sig.insert h obj pos other = .ok h' ∧ OnlyChanges h obj (s.take pos ++ t ++ s.drop pos) h' := by
  obtain ⟨h', e, ho⟩ := wr_only hs (s.take pos ++ t ++ s.drop pos)
  refine ⟨h', ?_, ho⟩
  unfold Sig.insert vecInsert
  rw [rd_some hs, Out.ok_bind, rd_some ht, Out.ok_bind, if_neg hne, if_pos hp, Out.ok_bind, e]

/-- **C38** append -/
theorem C38_append (h : Objects α) (obj other : ℕ) (s t : List α) (hs : h[obj]? = some s) (ht : h[other]? = some t)
    (hne : obj ≠ other) :
    ∃ h', Sig.append h obj other = .ok h' ∧ OnlyChanges h obj (s ++ t) h' := by
  obtain ⟨h', e, ho⟩ := C38_insert h obj other s.length s t hs ht hne le_rfl
  refine ⟨h', ?_, by simpa using ho⟩
  unfold Sig.append
  rw [rd_some hs, Out.ok_bind, e]

/-- **C38** prepend -/
theorem C38_prepend (h : Objects α) (obj other : ℕ) (s t : List α) (hs : h[obj]? = some s) (ht : h[other]? = some t)
    (hne : obj ≠ other) :
    ∃ h', Sig.prepend h obj other = .ok h' ∧ OnlyChanges h obj (t ++ s) h' := by
  obtain ⟨h', e, ho⟩ := C38_insert h obj other 0 s t hs ht hne (Nat.zero_le _)
  exact ⟨h', e, by simpa using ho⟩

/-- **C38**: a signal must not be inserted into, appended to or prepended to itself: the behaviour is undefined, as
`std::vector::insert` does not accept a part of the vector. -/
theorem C38_self_append_undefined (h : Objects α) (obj : ℕ) (s : List α) (hs : h[obj]? = some s) (pos : ℕ) :
    Sig.append h obj obj = .ub ∧ Sig.prepend h obj obj = .ub ∧ Sig.insert h obj pos obj = .ub := by
  have hi : ∀ p, Sig.insert h obj p obj = .ub := by
    intro p
    unfold Sig.insert
    rw [rd_some hs, Out.ok_bind, Out.ok_bind, if_pos rfl]
  refine ⟨?_, hi _, hi _⟩
  unfold Sig.append
  rw [rd_some hs, Out.ok_bind, hi]

/-- **C38** push_back -/
theorem C38_push_back (h : Objects α) (obj : ℕ) (s : List α) (x : α) (hs : h[obj]? = some s) :
    ∃ h', Sig.pushBack h obj x = .ok h' ∧ OnlyChanges h obj (s ++ [x]) h' := by
  obtain ⟨h', e, ho⟩ := wr_only hs (s ++ [x])
  refine ⟨h', ?_, ho⟩
  unfold Sig.pushBack
  rw [rd_some hs, Out.ok_bind, e]

/-- **C38** clear -/
theorem C38_clear (h : Objects α) (obj : ℕ) (s : List α) (hs : h[obj]? = some s) :
    ∃ h', Sig.clear h obj = .ok h' ∧ OnlyChanges h obj [] h' := by
  obtain ⟨h', e, ho⟩ := wr_only hs []
  refine ⟨h', ?_, ho⟩
  unfold Sig.clear
  rw [rd_some hs, Out.ok_bind, e]

/-- **C38** resize: the length is as requested, old elements stay, new ones have the given value. -/
theorem C38_resize (h : Objects α) (obj count : ℕ) (s : List α) (v : α) (hs : h[obj]? = some s) :
    ∃ h' s', Sig.resize h obj count v = .ok h' ∧ OnlyChanges h obj s' h' ∧ s'.length = count ∧
      ∀ i, i < count → s'[i]? = if i < s.length then s[i]? else some v := by
  obtain ⟨h', e, ho⟩ := wr_only hs (s.take count ++ List.replicate (count - s.length) v)
  refine ⟨h', _, ?_, ho, ?_, ?_⟩
  · unfold Sig.resize
    rw [rd_some hs, Out.ok_bind, e]
  · simp; omega
  · intro i hi
    by_cases hl : i < s.length
    · rw [if_pos hl, List.getElem?_append_left (by simp; omega), List.getElem?_take, if_pos hi]
    · rw [if_neg hl, List.getElem?_append_right (by simp; omega), List.getElem?_replicate, if_pos]
      simp; omega

/-- **C38** erase: exactly the elements of the range disappear. -/
theorem C38_erase (h : Objects α) (obj first last : ℕ) (s : List α) (hs : h[obj]? = some s) (hfl : first ≤ last)
    (hl : last ≤ s.length) :
    ∃ h', Sig.erase h obj first last = .ok h' ∧ OnlyChanges h obj (s.take first ++ s.drop last) h' := by
  obtain ⟨h', e, ho⟩ := wr_only hs (s.take first ++ s.drop last)
  refine ⟨h', ?_, ho⟩
  unfold Sig.erase vecErase
  rw [rd_some hs, Out.ok_bind, if_pos ⟨hfl, hl⟩, Out.ok_bind, e]

/-- **C38** erase of one element -/
theorem C38_erase_one (h : Objects α) (obj pos : ℕ) (s : List α) (hs : h[obj]? = some s) (hp : pos < s.length) :
    ∃ h', Sig.erase1 h obj pos = .ok h' ∧ OnlyChanges h obj (s.eraseIdx pos) h' := by
  obtain ⟨h', e, ho⟩ := C38_erase h obj pos (pos + 1) s hs (by omega) hp
  refine ⟨h', ?_, ?_⟩
  · unfold Sig.erase1
    rw [rd_some hs, Out.ok_bind, if_pos hp, e]
  · rw [List.eraseIdx_eq_take_drop_succ]
    exact ho

/-- **C38** extract_front: returns the first `count` elements, which disappear from the signal. -/
theorem C38_extract_front (h : Objects α) (obj count : ℕ) (s : List α) (hs : h[obj]? = some s) (hc : count ≤ s.length) :
    ∃ h', Sig.extractFront h obj count = .ok (s.take count, h') ∧ OnlyChanges h obj (s.drop count) h' := by
  obtain ⟨h', e, ho⟩ := C38_erase h obj 0 count s hs (Nat.zero_le _) hc
  refine ⟨h', ?_, by simpa using ho⟩
  unfold Sig.extractFront Sig.ofData loadV
  rw [rd_some hs, Out.ok_bind, cassert_true hc, Out.ok_bind, if_pos le_rfl, if_pos (by simpa using hc), Out.ok_bind, e,
    Out.ok_bind]
  simp [Out.pure_def]

/-- **C38** extract_back: returns the last `count` elements, in order, which disappear from the signal. -/
theorem C38_extract_back (h : Objects α) (obj count : ℕ) (s : List α) (hs : h[obj]? = some s) (hc : count ≤ s.length) :
    ∃ h', Sig.extractBack h obj count = .ok (s.drop (s.length - count), h') ∧
      OnlyChanges h obj (s.take (s.length - count)) h' := by
  obtain ⟨h', e, ho⟩ := C38_erase h obj (s.length - count) s.length s hs (by omega) le_rfl
  refine ⟨h', ?_, by simpa using ho⟩
  unfold Sig.extractBack Sig.ofData loadV
  have hp : (0 - (count : ℤ) + (s.length : ℤ)).toNat = s.length - count := by omega
  rw [rd_some hs, Out.ok_bind, cassert_true hc, Out.ok_bind, if_pos (by omega), hp, if_pos (by omega), Out.ok_bind, e,
    Out.ok_bind, Out.pure_def, List.take_of_length_le (by simp; omega)]

/-- **C38**: extracting more than there is fails the assertion. -/
theorem C38_extract_too_much (h : Objects α) (obj count : ℕ) (s : List α) (hs : h[obj]? = some s)
    (hc : s.length < count) :
    Sig.extractFront h obj count = .assertFail ∧ Sig.extractBack h obj count = .assertFail := by
  constructor
  · unfold Sig.extractFront
    rw [rd_some hs, Out.ok_bind, cassert, if_neg (by omega)]
    rfl
  · unfold Sig.extractBack
    rw [rd_some hs, Out.ok_bind, cassert, if_neg (by omega)]
    rfl

/-- **C38**: `t = s.extract_front(n); s.prepend(t)` restores `s`, and likewise `extract_back` with `append`. -/
theorem C38_extract_then_restore (h : Objects α) (obj dst count : ℕ) (s t : List α) (hs : h[obj]? = some s)
    (ht : h[dst]? = some t) (hne : obj ≠ dst) (hc : count ≤ s.length) :
    (∃ h', (do
        let (part, h) ← Sig.extractFront h obj count
        let h ← wr h (dst : ℤ) part
        Sig.prepend h obj dst) = .ok h' ∧ h'[obj]? = some s) ∧
    (∃ h', (do
        let (part, h) ← Sig.extractBack h obj count
        let h ← wr h (dst : ℤ) part
        Sig.append h obj dst) = .ok h' ∧ h'[obj]? = some s) := by
  constructor
  · obtain ⟨h1, e1, l1, o1, k1⟩ := C38_extract_front h obj count s hs hc
    obtain ⟨h2, e2, l2, o2, k2⟩ := wr_only (h := h1) (obj := dst) (s := t) (by rw [k1 _ (Ne.symm hne), ht]) (s.take count)
    obtain ⟨h3, e3, l3, o3, k3⟩ := C38_prepend h2 obj dst (s.drop count) (s.take count) (by rw [k2 _ hne, o1]) o2 hne
    refine ⟨h3, ?_, by rw [o3, List.take_append_drop]⟩
    rw [e1, Out.ok_bind]
    simp only
    rw [e2, Out.ok_bind, e3]
  · obtain ⟨h1, e1, l1, o1, k1⟩ := C38_extract_back h obj count s hs hc
    obtain ⟨h2, e2, l2, o2, k2⟩ := wr_only (h := h1) (obj := dst) (s := t) (by rw [k1 _ (Ne.symm hne), ht])
      (s.drop (s.length - count))
    obtain ⟨h3, e3, l3, o3, k3⟩ := C38_append h2 obj dst _ _ (by rw [k2 _ hne, o1]) o2 hne
    refine ⟨h3, ?_, by rw [o3, List.take_append_drop]⟩
    rw [e1, Out.ok_bind]
    simp only
    rw [e2, Out.ok_bind, e3]

/-- Client program: a signal (object 0) used as a FIFO buffer.  `inl block`: assign `block` to object 1 and append it;
`inr n`: take `n` samples out at the front.  Returns everything taken out and the final objects. -/
def fifoRun : List (List α ⊕ ℕ) → Objects α → Out (List α × Objects α)
  | [], h => .ok ([], h)
  | .inl block :: cmds, h => do
    let h ← wr h 1 block
    let h ← Sig.append h 0 1
    fifoRun cmds h
  | .inr n :: cmds, h => do
    let (part, h) ← Sig.extractFront h 0 n
    let (rest, h) ← fifoRun cmds h
    pure (part ++ rest, h)

/-- Everything ever put in. -/
def fifoPushed : List (List α ⊕ ℕ) → List α
  | [] => []
  | .inl block :: cmds => block ++ fifoPushed cmds
  | .inr _ :: cmds => fifoPushed cmds

/-- With `n` samples in the buffer, no command asks for more than is there. -/
def fifoFeasible : List (List α ⊕ ℕ) → ℕ → Prop
  | [], _ => True
  | .inl block :: cmds, n => fifoFeasible cmds (n + block.length)
  | .inr k :: cmds, n => k ≤ n ∧ fifoFeasible cmds (n - k)

/-- **C38** for whole histories: whatever the sequence of appended blocks and extracted amounts, what was taken out
followed by what is still in the buffer is what was in the buffer at first followed by all blocks: nothing is lost,
duplicated or reordered.  The only way to fail is asking for more than there is. -/
theorem C38_fifo_history (cmds : List (List α ⊕ ℕ)) (h : Objects α) (s t : List α) (hs : h[0]? = some s)
    (ht : h[1]? = some t) :
    (fifoFeasible cmds s.length → ∃ out h' rest, fifoRun cmds h = .ok (out, h') ∧ h'[0]? = some rest ∧
      out ++ rest = s ++ fifoPushed cmds) ∧
    (¬ fifoFeasible cmds s.length → fifoRun cmds h = .assertFail) := by
  induction cmds generalizing h s t with
  | nil => exact ⟨fun _ => ⟨[], h, s, rfl, hs, by simp [fifoPushed]⟩, fun hn => absurd trivial hn⟩
  | cons c cmds ih =>
    cases c with
    | inl block =>
      obtain ⟨h1, e1, l1, o1, k1⟩ := wr_only (obj := 1) ht block
      obtain ⟨h2, e2, l2, o2, k2⟩ := C38_append h1 0 1 s block (by rw [k1 0 (by omega), hs]) o1 (by omega)
      obtain ⟨ih1, ih2⟩ := ih h2 (s ++ block) block o2 (by rw [k2 1 (by omega), o1])
      rw [List.length_append] at ih1 ih2
      have hrun : fifoRun (.inl block :: cmds) h = fifoRun cmds h2 := by
        rw [fifoRun]
        rw [show ((1 : ℤ)) = ((1 : ℕ) : ℤ) from rfl, e1, Out.ok_bind, e2, Out.ok_bind]
      constructor
      · intro hf
        obtain ⟨out, h', rest, e, hr, heq⟩ := ih1 hf
        exact ⟨out, h', rest, by rw [hrun, e], hr, by rw [heq]; simp [fifoPushed]⟩
      · intro hf
        rw [hrun]
        exact ih2 hf
    | inr n =>
      by_cases hn : n ≤ s.length
      · obtain ⟨h1, e1, l1, o1, k1⟩ := C38_extract_front h 0 n s hs hn
        obtain ⟨ih1, ih2⟩ := ih h1 (s.drop n) t o1 (by rw [k1 1 (by omega), ht])
        rw [List.length_drop] at ih1 ih2
        constructor
        · intro hf
          obtain ⟨out, h', rest, e, hr, heq⟩ := ih1 hf.2
          refine ⟨s.take n ++ out, h', rest, ?_, hr, ?_⟩
          · rw [fifoRun, e1, Out.ok_bind]
            simp only
            rw [e, Out.ok_bind, Out.pure_def]
          · rw [List.append_assoc, heq, fifoPushed, ← List.append_assoc, List.take_append_drop]
        · intro hf
          have : ¬ fifoFeasible cmds (s.length - n) := fun hc => hf ⟨hn, hc⟩
          rw [fifoRun, e1, Out.ok_bind]
          simp only
          rw [ih2 this]
          rfl
      · constructor
        · intro hf
          exact absurd hf.1 hn
        · intro _
          rw [fifoRun, (C38_extract_too_much h 0 n s hs (by omega)).1]
          rfl

example : fifoRun [.inl [1, 2, 3], .inr 2, .inl [4], .inr 3] [[0], []] = .ok ([0, 1, 2, 3, 4], [[], [4]]) := by decide
example : fifoFeasible [.inl [1, 2, 3], .inr 2, .inl [4], .inr 3] [0].length := by simp [fifoFeasible]
example : fifoRun [.inl [1, 2, 3], .inr 5] [[0], []] = .assertFail := by decide
example : Sig.insert [[1, 2, 3], [7, 8]] 0 1 1 = .ok [[1, 7, 8, 2, 3], [7, 8]] := by decide
example : Sig.erase [[1, 2, 3, 4]] 0 1 3 = .ok [[1, 4]] := by decide
example : Sig.extractBack [[1, 2, 3, 4]] 0 3 = .ok ([2, 3, 4], [[1]]) := by decide

/-! ### views -/

/-- Specification: in an array of `n` elements the view denotes the `size` elements from position `pos` on.  (A view
without elements has no meaningful position.) -/
def View.Denotes (n : ℕ) (v : View) (pos size : ℕ) : Prop :=
  (size = 0 ∧ v = ⟨none, none⟩) ∨ (0 < size ∧ pos + size ≤ n ∧ v = ⟨some pos, some (pos + size)⟩)

theorem ofRange_denotes (n p q : ℕ) (h : p ≤ q) (hq : q ≤ n) :
    ∃ v, View.ofRange n (some p) (some q) = .ok v ∧ v.Denotes n p (q - p) := by
  rcases Nat.lt_or_ge p q with hpq | hpq
  · refine ⟨⟨some p, some (p + (q - p))⟩, ?_, Or.inr ⟨by omega, by omega, rfl⟩⟩
    unfold View.ofRange
    rw [if_pos (by simp; omega)]
    unfold Ptr.deref Ptr.diff Ptr.add
    simp only
    rw [if_pos (by omega), Out.ok_bind, Out.ok_bind]
    simp only
    rw [if_pos (by omega), Out.ok_bind, Out.pure_def]
    congr 2
    simp; omega
  · obtain rfl : p = q := by omega
    refine ⟨⟨none, none⟩, ?_, Or.inl ⟨by omega, rfl⟩⟩
    unfold View.ofRange
    rw [if_neg (by simp)]
    unfold Ptr.diff Ptr.add
    simp [Out.pure_def]

/-- **C39**: a view of a signal denotes all of its elements. -/
theorem C39_view_of_signal (mem : List α) :
    ∃ v, View.ofSignal mem = .ok v ∧ v.Denotes mem.length 0 mem.length := by
  obtain ⟨v, h1, h2⟩ := ofRange_denotes mem.length 0 mem.length (Nat.zero_le _) le_rfl
  exact ⟨v, h1, by simpa using h2⟩

/-- **C39**: a view from a position and a size denotes those elements. -/
theorem C39_view_of_position_and_size (n p size : ℕ) (h : p + size ≤ n) :
    ∃ v, View.ofSize n (some p) size = .ok v ∧ v.Denotes n p size := by
  rcases Nat.eq_zero_or_pos size with rfl | hs
  · refine ⟨⟨none, none⟩, ?_, Or.inl ⟨rfl, rfl⟩⟩
    simp [View.ofSize, Ptr.add, Out.pure_def]
  · refine ⟨⟨some p, some (p + size)⟩, ?_, Or.inr ⟨hs, h, rfl⟩⟩
    unfold View.ofSize Ptr.deref Ptr.add
    simp only
    rw [if_pos (by omega), if_pos (by omega), Out.ok_bind]
    simp only
    rw [if_pos (by omega), Out.ok_bind, Out.pure_def]
    congr 2

/-- **C39**: the size of a view is the number of elements it denotes; it is empty iff that is zero. -/
theorem C39_size (n : ℕ) (v : View) (pos size : ℕ) (h : v.Denotes n pos size) :
    v.size = .ok size ∧ (v.empty = true ↔ size = 0) := by
  rcases h with ⟨rfl, rfl⟩ | ⟨h0, h1, rfl⟩
  · simp [View.size, Ptr.diff, View.empty, Out.pure_def]
  · constructor
    · unfold View.size Ptr.diff
      simp only
      rw [Out.ok_bind, if_pos (by omega), Out.pure_def]
      congr 1
      omega
    · simp [View.empty]

/-- **C39**: reading through a view gives the element of the array at the view's position plus the index. -/
theorem C39_get (mem : List α) (v : View) (pos size i : ℕ) (h : v.Denotes mem.length pos size) (hi : i < size) :
    ∃ x, mem[pos + i]? = some x ∧ v.get mem i = .ok x := by
  rcases h with ⟨rfl, rfl⟩ | ⟨h0, h1, rfl⟩
  · omega
  · have hl : pos + i < mem.length := by omega
    exact ⟨mem[pos + i], by simp, by simp only [View.get]; exact rd_ofNat hl⟩

/-- **C39**: writing through a view changes that element of the array and no other. -/
theorem C39_set (mem : List α) (v : View) (pos size i : ℕ) (x : α) (h : v.Denotes mem.length pos size) (hi : i < size) :
    ∃ mem', v.set mem i x = .ok mem' ∧ mem'.length = mem.length ∧ mem'[pos + i]? = some x ∧
      ∀ j, j ≠ pos + i → mem'[j]? = mem[j]? := by
  rcases h with ⟨rfl, rfl⟩ | ⟨h0, h1, rfl⟩
  · omega
  · have hl : pos + i < mem.length := by omega
    refine ⟨mem.set (pos + i) x, ?_, by simp, by simp [hl], ?_⟩
    · simp only [View.set]
      rw [wr_eq (by omega) (by omega), show ((pos + i : ℕ) : ℤ).toNat = pos + i by omega]
    · intro j hj
      rw [List.getElem?_set_ne (Ne.symm hj)]

/-- **C39**: front and back are the first and the last element. -/
theorem C39_front_back (mem : List α) (v : View) (pos size : ℕ) (h : v.Denotes mem.length pos size) (hs : 0 < size) :
    v.front mem = v.get mem 0 ∧ v.back mem = v.get mem (size - 1) := by
  rcases h with ⟨rfl, rfl⟩ | ⟨h0, h1, rfl⟩
  · omega
  · constructor
    · simp [View.front, View.get]
    · simp only [View.back, View.get]
      congr 1
      omega

theorem add_some (n p : ℕ) (k : ℕ) (h : p + k ≤ n) : Ptr.add n (some p) (k : ℤ) = .ok (some (p + k)) := by
  unfold Ptr.add
  simp only
  rw [if_pos (by omega)]
  congr 2

theorem denotes_mono {n : ℕ} {v : View} {p p' s s' : ℕ} (h : v.Denotes n p s) (hs : s = s') (hp : 0 < s → p = p') :
    v.Denotes n p' s' := by
  subst hs
  rcases h with h | ⟨h0, h1, h2⟩
  · exact Or.inl h
  · obtain rfl := hp h0
    exact Or.inr ⟨h0, h1, h2⟩

/-- **C39** subsignal(offset, count): denotes `count` elements from `offset` on. -/
theorem C39_subsignal (n : ℕ) (v : View) (pos size offset count : ℕ) (h : v.Denotes n pos size)
    (hoc : offset + count ≤ size) :
    ∃ w, v.subsignal n offset count = .ok w ∧ w.Denotes n (pos + offset) count := by
  have hsz := (C39_size n v pos size h).1
  have hm : (offset + count) % 2 ^ 64 ≤ size := le_trans (Nat.mod_le _ _) hoc
  unfold View.subsignal
  rw [hsz, Out.ok_bind, cassert_true (by omega), Out.ok_bind, cassert_true hm, Out.ok_bind]
  rcases h with ⟨rfl, rfl⟩ | ⟨h0, h1, rfl⟩
  · obtain rfl : offset = 0 := by omega
    obtain rfl : count = 0 := by omega
    exact ⟨⟨none, none⟩, rfl, Or.inl ⟨rfl, rfl⟩⟩
  · obtain ⟨w, hw, hd⟩ := ofRange_denotes n (pos + offset) (pos + offset + count) (by omega) (by omega)
    refine ⟨w, ?_, denotes_mono hd (by omega) (fun _ => rfl)⟩
    simp only
    rw [add_some _ _ _ (by omega), Out.ok_bind, add_some _ _ _ (by omega), Out.ok_bind, hw]

/-- **C39** subsignal(offset): denotes everything from `offset` on. -/
theorem C39_subsignal_from (n : ℕ) (v : View) (pos size offset : ℕ) (h : v.Denotes n pos size) (ho : offset ≤ size) :
    ∃ w, v.subsignalFrom n offset = .ok w ∧ w.Denotes n (pos + offset) (size - offset) := by
  have hsz := (C39_size n v pos size h).1
  unfold View.subsignalFrom
  rw [hsz, Out.ok_bind, cassert_true ho, Out.ok_bind]
  rcases h with ⟨rfl, rfl⟩ | ⟨h0, h1, rfl⟩
  · obtain rfl : offset = 0 := by omega
    exact ⟨⟨none, none⟩, rfl, Or.inl ⟨rfl, rfl⟩⟩
  · obtain ⟨w, hw, hd⟩ := ofRange_denotes n (pos + offset) (pos + size) (by omega) (by omega)
    refine ⟨w, ?_, denotes_mono hd (by omega) (fun _ => rfl)⟩
    simp only
    rw [add_some _ _ _ (by omega), Out.ok_bind, hw]

/-- **C39** first(k) -/
theorem C39_first (n : ℕ) (v : View) (pos size k : ℕ) (h : v.Denotes n pos size) (hk : k ≤ size) :
    ∃ w, v.firstN n k = .ok w ∧ w.Denotes n pos k := by
  have hsz := (C39_size n v pos size h).1
  unfold View.firstN
  rw [hsz, Out.ok_bind, cassert_true hk, Out.ok_bind]
  rcases h with ⟨rfl, rfl⟩ | ⟨h0, h1, rfl⟩
  · obtain rfl : k = 0 := by omega
    exact ⟨⟨none, none⟩, rfl, Or.inl ⟨rfl, rfl⟩⟩
  · obtain ⟨w, hw, hd⟩ := ofRange_denotes n pos (pos + k) (by omega) (by omega)
    refine ⟨w, ?_, denotes_mono hd (by omega) (fun _ => rfl)⟩
    simp only
    rw [add_some _ _ _ (by omega), Out.ok_bind, hw]

/-- **C39** last(k): the last `k` elements, in order. -/
theorem C39_last (n : ℕ) (v : View) (pos size k : ℕ) (h : v.Denotes n pos size) (hk : k ≤ size) :
    ∃ w, v.lastN n k = .ok w ∧ w.Denotes n (pos + (size - k)) k := by
  have hsz := (C39_size n v pos size h).1
  unfold View.lastN
  rw [hsz, Out.ok_bind, cassert_true hk, Out.ok_bind]
  rcases h with ⟨rfl, rfl⟩ | ⟨h0, h1, rfl⟩
  · obtain rfl : k = 0 := by omega
    exact ⟨⟨none, none⟩, rfl, Or.inl ⟨rfl, rfl⟩⟩
  · obtain ⟨w, hw, hd⟩ := ofRange_denotes n (pos + (size - k)) (pos + size) (by omega) (by omega)
    refine ⟨w, ?_, denotes_mono hd (by omega) (fun _ => rfl)⟩
    simp only
    have ha : Ptr.add n (some (pos + size)) (-(k : ℤ)) = .ok (some (pos + (size - k))) := by
      unfold Ptr.add
      simp only
      rw [if_pos (by omega)]
      congr 2
      omega
    rw [ha, Out.ok_bind, hw]

/-- **C39**: a part of a part is the part at the sum of the offsets — the very same view. -/
theorem C39_composition (n : ℕ) (v : View) (pos size o1 c1 o2 c2 : ℕ) (h : v.Denotes n pos size)
    (h1 : o1 + c1 ≤ size) (h2 : o2 + c2 ≤ c1) :
    (do let w ← v.subsignal n o1 c1
        w.subsignal n o2 c2) = v.subsignal n (o1 + o2) c2 := by
  obtain ⟨w, hw, dw⟩ := C39_subsignal n v pos size o1 c1 h h1
  obtain ⟨x, hx, dx⟩ := C39_subsignal n w (pos + o1) c1 o2 c2 dw h2
  obtain ⟨y, hy, dy⟩ := C39_subsignal n v pos size (o1 + o2) c2 h (by omega)
  rw [hw, Out.ok_bind, hx, hy]
  congr 1
  rcases dx with ⟨e, rfl⟩ | ⟨e, e', rfl⟩
  · rcases dy with ⟨f, rfl⟩ | ⟨f, f', rfl⟩
    · rfl
    · omega
  · rcases dy with ⟨f, rfl⟩ | ⟨f, f', rfl⟩
    · omega
    · rw [add_assoc]

/-- **C39**: a part that sticks out is refused by an assertion, as long as `offset + count` fits in 64 bits ... -/
theorem C39_subsignal_refused (n : ℕ) (v : View) (pos size offset count : ℕ) (h : v.Denotes n pos size)
    (hoc : size < offset + count) (hfit : offset + count < 2 ^ 64) : v.subsignal n offset count = .assertFail := by
  have hsz := (C39_size n v pos size h).1
  unfold View.subsignal
  rw [hsz, Out.ok_bind]
  by_cases ho : offset ≤ size
  · rw [cassert_true ho, Out.ok_bind, cassert, if_neg]
    · rfl
    · rw [Nat.mod_eq_of_lt hfit]; omega
  · rw [cassert, if_neg ho]
    rfl

/-- ... but not if the sum wraps around: `subsignal(1, SIZE_MAX)` passes the assertions of every non-empty view, and
leaves the array. -/
theorem C39_subsignal_wraps (n : ℕ) (v : View) (pos size : ℕ) (h : v.Denotes n pos size) (hs : 0 < size)
    (hn : n < 2 ^ 64 - 1) : v.subsignal n 1 (2 ^ 64 - 1) = .ub := by
  have hsz := (C39_size n v pos size h).1
  unfold View.subsignal
  rw [hsz, Out.ok_bind, cassert_true (by omega), Out.ok_bind, cassert_true (by norm_num), Out.ok_bind]
  rcases h with ⟨rfl, rfl⟩ | ⟨h0, h1, rfl⟩
  · omega
  · simp only
    rw [show Ptr.add n (some pos) ((1 : ℕ) : ℤ) = .ok (some (pos + 1)) from add_some _ _ _ (by omega), Out.ok_bind]
    unfold Ptr.add
    simp only
    rw [if_neg]
    · rfl
    · rw [Nat.cast_sub (by norm_num)]
      push_cast
      omega

/-- **C39**: the other accessors refuse more than there is. -/
theorem C39_first_last_refused (n : ℕ) (v : View) (pos size k : ℕ) (h : v.Denotes n pos size) (hk : size < k) :
    v.firstN n k = .assertFail ∧ v.lastN n k = .assertFail ∧ v.subsignalFrom n k = .assertFail := by
  have hsz := (C39_size n v pos size h).1
  unfold View.firstN View.lastN View.subsignalFrom
  rw [hsz, Out.ok_bind, Out.ok_bind, Out.ok_bind, cassert, if_neg (by omega)]
  exact ⟨rfl, rfl, rfl⟩

/-- **C39**: the elements of disjoint parts do not influence each other: a write through one view is not seen
through another one that denotes different elements. -/
theorem C39_disjoint_writes (mem : List α) (v w : View) (p1 s1 p2 s2 i j : ℕ) (x : α)
    (hv : v.Denotes mem.length p1 s1) (hw : w.Denotes mem.length p2 s2) (hi : i < s1) (hj : j < s2)
    (hd : p1 + s1 ≤ p2 ∨ p2 + s2 ≤ p1) :
    ∃ mem', v.set mem i x = .ok mem' ∧ w.get mem' j = w.get mem j := by
  obtain ⟨m, hm, hl, _, ho⟩ := C39_set mem v p1 s1 i x hv hi
  refine ⟨m, hm, ?_⟩
  obtain ⟨a, ha, ga⟩ := C39_get mem w p2 s2 j hw hj
  obtain ⟨b, hb, gb⟩ := C39_get m w p2 s2 j (by rw [hl]; exact hw) hj
  rw [ga, gb]
  rw [ho _ (by omega), ha] at hb
  cases hb
  rfl

example : (do let v ← View.ofSignal [10, 20, 30, 40, 50]
              let w ← v.subsignal 5 1 3
              let u ← w.lastN 5 2
              u.get [10, 20, 30, 40, 50] 1) = Out.ok 40 := by decide
example : View.Denotes 5 ⟨some 1, some 4⟩ 1 3 := Or.inr ⟨by omega, by omega, rfl⟩

end signals

/-! ### arithmetic -/

section arithmetic
variable {K : Type} [Add K] [Sub K] [Mul K] [Div K] [Zero K]

/-- Specification: what an operation does with two numbers. -/
def ArithOp.apply : ArithOp → K → K → K
  | .mul, x, y => x * y
  | .div, x, y => x / y
  | .add, x, y => x + y
  | .sub, x, y => x - y

theorem functor_apply (op : ArithOp) : (op.functor : K → K → K) = op.apply := by
  cases op <;> rfl
theorem scalarLeft_apply (op : ArithOp) (s : K) : op.scalarLeft s = fun x => op.apply s x := by
  cases op <;> rfl
theorem scalarRight_apply (op : ArithOp) (s : K) : op.scalarRight s = fun x => op.apply x s := by
  cases op <;> rfl

theorem checkSizes3_ok (asserts : Bool) (r a b : Span) (h1 : r.size = a.size) (h2 : r.size = b.size) :
    checkSizes3 asserts r a b = .ok () := by
  unfold checkSizes3
  cases asserts <;> simp [h1, ← h2, cassert]

theorem checkSizes2_ok (asserts : Bool) (r a : Span) (h1 : r.size = a.size) : checkSizes2 asserts r a = .ok () := by
  unfold checkSizes2
  cases asserts <;> simp [h1, cassert]

/-- The outcome of a size check that is violated: an assertion if they are compiled in, otherwise an exception. -/
def refused (asserts : Bool) {β : Type} : Out β := if asserts then .assertFail else .throws

theorem checkSizes3_bad (asserts : Bool) (r a b : Span) (h : ¬ (r.size = a.size ∧ r.size = b.size)) :
    checkSizes3 asserts r a b = refused asserts := by
  unfold checkSizes3 refused
  cases asserts
  · rw [if_neg (by simp), if_neg (by simp)]
    simp only [Out.pure_def, Out.ok_bind]
    rw [if_pos (by tauto)]
    simp
  · simp only [if_true]
    by_cases h1 : r.size = a.size
    · rw [cassert_true h1, Out.ok_bind, cassert, if_neg (by tauto)]
      rfl
    · rw [cassert, if_neg h1]
      rfl

theorem checkSizes2_bad (asserts : Bool) (r a : Span) (h : r.size ≠ a.size) :
    checkSizes2 asserts r a = refused asserts := by
  unfold checkSizes2 refused
  cases asserts
  · rw [if_neg (by simp)]
    simp only [Out.pure_def, Out.ok_bind]
    rw [if_pos h]
    simp
  · simp only [if_true]
    rw [cassert, if_neg h]
    rfl

/-- **C40** for two signals and a separate or identical result: every element of the result is the operation applied
to the corresponding elements as they were before the call, and nothing else in memory changes.  The result may be
one of the operands (or start before it in memory); it must not start inside of an operand. -/
theorem C40_vector_vector (asserts vec : Bool) (W : ℕ) (op : ArithOp) (mem : List K) (r a b : Span)
    (hra : r.size = a.size) (hrb : r.size = b.size) (hr : r.pos + r.size ≤ mem.length)
    (ha : a.pos + a.size ≤ mem.length) (hb : b.pos + b.size ≤ mem.length)
    (hal : r.pos ≤ a.pos ∨ a.pos + a.size ≤ r.pos) (hbl : r.pos ≤ b.pos ∨ b.pos + b.size ≤ r.pos) :
    ∃ mem', arithVV asserts vec W op mem r a b = .ok mem' ∧ mem'.length = mem.length ∧
      (∀ i x y, i < r.size → mem[a.pos + i]? = some x → mem[b.pos + i]? = some y →
        mem'[r.pos + i]? = some (op.apply x y)) ∧
      (∀ j, j < r.pos ∨ r.pos + r.size ≤ j → mem'[j]? = mem[j]?) := by
  obtain ⟨m, e, h1, h2, h3⟩ := C08_transform_binary vec W (op.apply (K := K)) mem a.pos a.size b.pos r.pos ha
    (by omega) (by omega) hal (by omega)
  refine ⟨m, ?_, h1, fun i x y hi => h2 i x y (by omega), fun j hj => h3 j (by omega)⟩
  unfold arithVV
  rw [checkSizes3_ok asserts r a b hra hrb, Out.ok_bind, functor_apply, e]

/-- **C40** with a scalar on the right -/
theorem C40_vector_scalar (asserts vec : Bool) (W : ℕ) (op : ArithOp) (mem : List K) (r a : Span) (s : K)
    (hra : r.size = a.size) (hr : r.pos + r.size ≤ mem.length) (ha : a.pos + a.size ≤ mem.length)
    (hal : r.pos ≤ a.pos ∨ a.pos + a.size ≤ r.pos) :
    ∃ mem', arithVS asserts vec W op mem r a s = .ok mem' ∧ mem'.length = mem.length ∧
      (∀ i, i < r.size → mem'[r.pos + i]? = mem[a.pos + i]?.map (fun x => op.apply x s)) ∧
      (∀ j, j < r.pos ∨ r.pos + r.size ≤ j → mem'[j]? = mem[j]?) := by
  obtain ⟨m, e, h1, h2, h3⟩ := C08_transform_unary vec W (fun x => op.apply x s) mem a.pos a.size r.pos ha
    (by omega) hal
  refine ⟨m, ?_, h1, fun i hi => h2 i (by omega), fun j hj => h3 j (by omega)⟩
  unfold arithVS
  rw [checkSizes2_ok asserts r a hra, Out.ok_bind, scalarRight_apply, e]

/-- **C40** with a scalar on the left -/
theorem C40_scalar_vector (asserts vec : Bool) (W : ℕ) (op : ArithOp) (mem : List K) (r : Span) (s : K) (b : Span)
    (hrb : r.size = b.size) (hr : r.pos + r.size ≤ mem.length) (hb : b.pos + b.size ≤ mem.length)
    (hbl : r.pos ≤ b.pos ∨ b.pos + b.size ≤ r.pos) :
    ∃ mem', arithSV asserts vec W op mem r s b = .ok mem' ∧ mem'.length = mem.length ∧
      (∀ i, i < r.size → mem'[r.pos + i]? = mem[b.pos + i]?.map (fun x => op.apply s x)) ∧
      (∀ j, j < r.pos ∨ r.pos + r.size ≤ j → mem'[j]? = mem[j]?) := by
  obtain ⟨m, e, h1, h2, h3⟩ := C08_transform_unary vec W (fun x => op.apply s x) mem b.pos b.size r.pos hb
    (by omega) hbl
  refine ⟨m, ?_, h1, fun i hi => h2 i (by omega), fun j hj => h3 j (by omega)⟩
  unfold arithSV
  rw [checkSizes2_ok asserts r b hrb, Out.ok_bind, scalarLeft_apply, e]

/-- **C40**: different sizes are refused in every form of the operation: with an exception, or with the assertion in
front of it. -/
theorem C40_size_mismatch_refused (asserts vec : Bool) (W : ℕ) (op : ArithOp) (mem : List K) (r a b : Span) (s : K) :
    (¬ (r.size = a.size ∧ r.size = b.size) → arithVV asserts vec W op mem r a b = refused asserts) ∧
    (r.size ≠ a.size → arithVS asserts vec W op mem r a s = refused asserts) ∧
    (r.size ≠ b.size → arithSV asserts vec W op mem r s b = refused asserts) ∧
    (a.size ≠ b.size → operatorVV asserts vec W op mem a b = refused asserts) ∧
    (a.size ≠ b.size → compoundVV asserts vec W op mem a b = refused asserts) := by
  have hb : ∀ {β γ : Type} (f : β → Out γ), (refused asserts : Out β) >>= f = refused asserts := by
    intro β γ f
    unfold refused
    cases asserts <;> rfl
  have h1 : ∀ (mem : List K) (r a b : Span), ¬ (r.size = a.size ∧ r.size = b.size) →
      arithVV asserts vec W op mem r a b = refused asserts := by
    intro mem r a b h
    unfold arithVV
    rw [checkSizes3_bad asserts r a b h, hb]
  refine ⟨h1 mem r a b, ?_, ?_, ?_, ?_⟩
  · intro h
    unfold arithVS
    rw [checkSizes2_bad asserts r a h, hb]
  · intro h
    unfold arithSV
    rw [checkSizes2_bad asserts r b h, hb]
  · intro h
    unfold operatorVV
    rw [h1 _ _ _ _ (by simp [h]), hb]
  · intro h
    unfold compoundVV
    exact h1 _ _ _ _ (by simp [h])

theorem getElem?_append_of_some {β : Type} {l : List β} {i : ℕ} (k : List β) (h : i < l.length) :
    (l ++ k)[i]? = l[i]? := List.getElem?_append_left h

/-- **C40** for the operators `a * b`, `a / b`, `a + b`, `a - b`: a new signal of the same size, element by element.
The operands may be views that overlap in any way. -/
theorem C40_operator_vector_vector (asserts vec : Bool) (W : ℕ) (op : ArithOp) (mem : List K) (a b : Span)
    (hab : a.size = b.size) (ha : a.pos + a.size ≤ mem.length) (hb : b.pos + b.size ≤ mem.length) :
    ∃ c, operatorVV asserts vec W op mem a b = .ok c ∧ c.length = a.size ∧
      ∀ i x y, i < a.size → mem[a.pos + i]? = some x → mem[b.pos + i]? = some y → c[i]? = some (op.apply x y) := by
  obtain ⟨m, e, h1, h2, -⟩ := C40_vector_vector asserts vec W op (mem ++ List.replicate a.size 0)
    ⟨mem.length, a.size⟩ a b rfl hab (by simp) (by simp; omega) (by simp; omega) (Or.inr ha) (Or.inr hb)
  refine ⟨m.drop mem.length, ?_, ?_, ?_⟩
  · unfold operatorVV
    rw [e, Out.ok_bind, Out.pure_def]
  · simp [h1]
  · intro i x y hi hx hy
    rw [List.getElem?_drop]
    refine h2 i x y hi ?_ ?_
    · rw [getElem?_append_of_some _ (by omega), hx]
    · rw [getElem?_append_of_some _ (by omega), hy]

/-- **C40** for the operators with a scalar on the right -/
theorem C40_operator_vector_scalar (asserts vec : Bool) (W : ℕ) (op : ArithOp) (mem : List K) (a : Span) (s : K)
    (ha : a.pos + a.size ≤ mem.length) :
    operatorVS asserts vec W op mem a s = .ok (((mem.drop a.pos).take a.size).map fun x => op.apply x s) := by
  obtain ⟨m, e, h1, h2, -⟩ := C40_vector_scalar asserts vec W op (mem ++ List.replicate a.size 0)
    ⟨mem.length, a.size⟩ a s rfl (by simp) (by simp; omega) (Or.inr ha)
  unfold operatorVS
  rw [e, Out.ok_bind, Out.pure_def]
  congr 1
  apply List.ext_getElem?
  intro i
  rw [List.getElem?_drop]
  by_cases hi : i < a.size
  · rw [h2 i hi, getElem?_append_of_some _ (by omega), List.getElem?_map, List.getElem?_take, if_pos hi,
      List.getElem?_drop]
  · rw [List.getElem?_eq_none (by simp [h1]; omega), List.getElem?_eq_none (by simp; omega)]

/-- **C40** for the operators with a scalar on the left -/
theorem C40_operator_scalar_vector (asserts vec : Bool) (W : ℕ) (op : ArithOp) (mem : List K) (s : K) (b : Span)
    (hb : b.pos + b.size ≤ mem.length) :
    operatorSV asserts vec W op mem s b = .ok (((mem.drop b.pos).take b.size).map fun x => op.apply s x) := by
  obtain ⟨m, e, h1, h2, -⟩ := C40_scalar_vector asserts vec W op (mem ++ List.replicate b.size 0)
    ⟨mem.length, b.size⟩ s b rfl (by simp) (by simp; omega) (Or.inr hb)
  unfold operatorSV
  rw [e, Out.ok_bind, Out.pure_def]
  congr 1
  apply List.ext_getElem?
  intro i
  rw [List.getElem?_drop]
  by_cases hi : i < b.size
  · rw [h2 i hi, getElem?_append_of_some _ (by omega), List.getElem?_map, List.getElem?_take, if_pos hi,
      List.getElem?_drop]
  · rw [List.getElem?_eq_none (by simp [h1]; omega), List.getElem?_eq_none (by simp; omega)]

/-- **C40**: `a op= b` leaves in `a` what `a op b` returns, and changes nothing else. -/
theorem C40_compound_equals_operator (asserts vec : Bool) (W : ℕ) (op : ArithOp) (mem : List K) (a b : Span)
    (hab : a.size = b.size) (ha : a.pos + a.size ≤ mem.length) (hb : b.pos + b.size ≤ mem.length)
    (hbl : a.pos ≤ b.pos ∨ b.pos + b.size ≤ a.pos) :
    ∃ mem' c, compoundVV asserts vec W op mem a b = .ok mem' ∧ operatorVV asserts vec W op mem a b = .ok c ∧
      (mem'.drop a.pos).take a.size = c ∧ ∀ j, j < a.pos ∨ a.pos + a.size ≤ j → mem'[j]? = mem[j]? := by
  obtain ⟨m, e, h1, h2, h3⟩ := C40_vector_vector asserts vec W op mem a a b rfl hab ha ha hb (Or.inl le_rfl) hbl
  obtain ⟨c, e', hc, hc'⟩ := C40_operator_vector_vector asserts vec W op mem a b hab ha hb
  refine ⟨m, c, e, e', ?_, h3⟩
  apply List.ext_getElem?
  intro i
  by_cases hi : i < a.size
  · have hx : a.pos + i < mem.length := by omega
    have hy : b.pos + i < mem.length := by omega
    rw [List.getElem?_take, if_pos hi, List.getElem?_drop,
      h2 i _ _ hi (List.getElem?_eq_getElem hx) (List.getElem?_eq_getElem hy),
      hc' i _ _ hi (List.getElem?_eq_getElem hx) (List.getElem?_eq_getElem hy)]
  · rw [List.getElem?_eq_none (by simp; omega), List.getElem?_eq_none (by omega)]

/-- **C40**: the same for `a op= scalar`. -/
theorem C40_compound_scalar_equals_operator (asserts vec : Bool) (W : ℕ) (op : ArithOp) (mem : List K) (a : Span) (s : K)
    (ha : a.pos + a.size ≤ mem.length) :
    ∃ mem' c, compoundVS asserts vec W op mem a s = .ok mem' ∧ operatorVS asserts vec W op mem a s = .ok c ∧
      (mem'.drop a.pos).take a.size = c ∧ ∀ j, j < a.pos ∨ a.pos + a.size ≤ j → mem'[j]? = mem[j]? := by
  obtain ⟨m, e, h1, h2, h3⟩ := C40_vector_scalar asserts vec W op mem a a s rfl ha ha (Or.inl le_rfl)
  refine ⟨m, _, e, C40_operator_vector_scalar asserts vec W op mem a s ha, ?_, h3⟩
  apply List.ext_getElem?
  intro i
  by_cases hi : i < a.size
  · rw [List.getElem?_take, if_pos hi, List.getElem?_drop, h2 i hi, List.getElem?_map, List.getElem?_take, if_pos hi,
      List.getElem?_drop]
  · rw [List.getElem?_eq_none (by simp; omega), List.getElem?_eq_none (by simp; omega)]

end arithmetic

example : operatorVV true true 2 ArithOp.sub [(1 : ℤ), 2, 3, 10, 20, 30] ⟨3, 3⟩ ⟨0, 3⟩ = .ok [9, 18, 27] := by decide
example : operatorVV false true 2 ArithOp.add [(1 : ℤ), 2, 3, 10, 20, 30] ⟨3, 3⟩ ⟨0, 2⟩ = .throws := by decide
example : operatorVV true true 2 ArithOp.add [(1 : ℤ), 2, 3, 10, 20, 30] ⟨3, 3⟩ ⟨0, 2⟩ = .assertFail := by decide
example : compoundVV true true 2 ArithOp.mul [(1 : ℤ), 2, 3, 10, 20, 30] ⟨3, 3⟩ ⟨0, 3⟩ =
    .ok [1, 2, 3, 10, 40, 90] := by decide
-- why the result must not start inside of an operand: `v[1..3] += v[0..2]` sees already changed elements
example : compoundVV true false 1 ArithOp.add [(1 : ℤ), 1, 1] ⟨1, 2⟩ ⟨0, 2⟩ = .ok [1, 2, 3] := by decide

end Verif
