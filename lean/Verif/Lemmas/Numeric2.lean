import Verif.Lemmas.Numeric

/-! The complete reduction kernels and the element-wise transforms. -/

set_option linter.unusedSimpArgs false

namespace Verif
open OpTree

theorem seg_length {α : Type*} (mem : List α) (p n : Nat) (h : p + n ≤ mem.length) :
    ((mem.drop p).take n).length = n := by
  simp; omega

theorem seg_get {α : Type*} (mem : List α) (p n i : Nat) (hi : i < n) :
    ((mem.drop p).take n)[i]? = mem[p + i]? := by
  rw [List.getElem?_take_of_lt hi, List.getElem?_drop]

theorem seg_eq_map {α β : Type*} (f : α → β) (d : α) (mem : List α) (p n : Nat)
    (h : p + n ≤ mem.length) :
    ((mem.drop p).take n).map f = (List.range n).map fun j => f (mem.getD (p + j) d) := by
  apply List.ext_getElem
  · simp; omega
  · intro i h1 h2
    have hi : p + i < mem.length := by simp at h2; omega
    simp [List.getD_eq_getElem _ _ hi, hi]

theorem transformReduce_tree {α β : Type u} {vec : Bool} {W : Nat} (hW : vec = true → 0 < W)
    {r : ReduceOp β} (hr : r.ExactOn fun _ => True) {red₁ red₂ : Reducer β}
    (h₁ : IsReduction red₁) (h₂ : IsReduction red₂) (f : α → β) (mem : List α)
    (pfirst count : Nat) (hb : pfirst + count ≤ mem.length) (init : β) :
    ∃ t : OpTree β, t.leaves.Perm (init :: ((mem.drop pfirst).take count).map f) ∧
      transformReduce vec W red₁ red₂ f mem pfirst count init r = .ok (t.eval r.op) := by
  cases vec with
  | false =>
    rcases Nat.eq_zero_or_pos count with rfl | hpos
    · obtain ⟨t, hl, he⟩ := reduceExplicit_tree (load := fun q => f <$> rd mem (q : Int)) (stride := 1)
        Nat.one_pos hr (fun _ => init) 0 pfirst init trivial (by simp)
      refine ⟨t, by rw [hl]; simp, ?_⟩
      simpa [transformReduce] using he
    · obtain ⟨d, hd⟩ : ∃ d : α, True := ⟨mem[pfirst]'(by omega), trivial⟩
      obtain ⟨t, hl, he⟩ := reduceExplicit_tree (load := fun q => f <$> rd mem (q : Int)) (stride := 1)
        Nat.one_pos hr (fun j => f (mem.getD (pfirst + j) d)) count pfirst init trivial (by
          intro j hj
          refine ⟨?_, trivial⟩
          have : pfirst + j < mem.length := by omega
          rw [Nat.mul_one, rd_ofNat this, List.getD_eq_getElem _ _ this]; rfl)
      refine ⟨t, ?_, ?_⟩
      · rw [hl, seg_eq_map f d mem pfirst count hb]
      · rw [Nat.mul_one] at he
        simpa [transformReduce] using he
  | true =>
    have hW := hW rfl
    have hdm := Nat.div_add_mod count W
    rw [Nat.mul_comm] at hdm
    simp only [transformReduce, if_true]
    by_cases hv : count / W = 0
    · have hred := h₂ r.op init (((mem.drop pfirst).take count).map f)
      obtain ⟨t, hp, he⟩ := hred
      refine ⟨t, hp, ?_⟩
      simp only [hv, ne_eq, not_true_eq_false, if_false, Nat.add_sub_cancel_left, loadV_ok hb,
        Out.ok_bind, Out.pure_def, he]
    · obtain ⟨n, hn⟩ : ∃ n, count / W = n + 1 := Nat.exists_eq_succ_of_ne_zero hv
      have hnW : (n + 1) * W ≤ count := by rw [← hn]; exact Nat.div_mul_le_self ..
      have hnW' : n * W + W = (n + 1) * W := by ring
      obtain ⟨res, hres, t1, ht1, he1⟩ := register_tree
        (load := fun q => (List.map f) <$> loadV W mem q) hW hr h₁
        (fun k => ((mem.drop (pfirst + W + k * W)).take W).map f) n (pfirst + W)
        (((mem.drop pfirst).take W).map f) init (by simp; omega) (by
          intro j hj
          have hj' : (j + 1) * W ≤ n * W := Nat.mul_le_mul_right _ hj
          rw [Nat.add_mul, Nat.one_mul] at hj'
          have hle : pfirst + W + j * W + W ≤ mem.length := by omega
          refine ⟨?_, ?_⟩
          · show List.map f <$> loadV W mem (pfirst + W + j * W) = _
            rw [loadV_ok hle]; rfl
          · simp only [List.length_map]; exact seg_length _ _ _ hle)
      have hpos : pfirst + W + n * W = pfirst + (n + 1) * W := by ring
      rw [hpos] at hres
      have hl0 : pfirst + W ≤ mem.length := by omega
      obtain ⟨t, hp, he⟩ := tail_tree (op := r.op) h₂ t1 _
        (((mem.drop (pfirst + (n + 1) * W)).take (count - (n + 1) * W)).map f) ht1
      refine ⟨t, hp.trans (List.Perm.of_eq ?_), ?_⟩
      · rw [seg_flatMap f mem (pfirst + W) W n, List.cons_append, ← List.map_append,
          ← seg_split, ← List.map_append]
        congr 2
        have : W + n * W = (n + 1) * W := by ring
        rw [this, ← seg_split]
        congr 1
        omega
      · have hsub : pfirst + count - (pfirst + (n + 1) * W) = count - (n + 1) * W := by omega
        have hlt : pfirst + (n + 1) * W + (count - (n + 1) * W) ≤ mem.length := by omega
        simp only [hn, ne_eq, Nat.succ_ne_zero, not_false_eq_true, if_true, loadV_ok hl0, Out.ok_bind,
          hres, hsub, loadV_ok hlt, Out.pure_def, he1, he]

theorem zip_seg {α₁ α₂ β : Type*} (prod : α₁ → α₂ → β) (m1 : List α₁) (m2 : List α₂)
    (p₁ p₂ a b : Nat) (h1 : p₁ + (a + b) ≤ m1.length) (h2 : p₂ + (a + b) ≤ m2.length) :
    List.zipWith prod ((m1.drop p₁).take (a + b)) ((m2.drop p₂).take (a + b)) =
      List.zipWith prod ((m1.drop p₁).take a) ((m2.drop p₂).take a) ++
      List.zipWith prod ((m1.drop (p₁ + a)).take b) ((m2.drop (p₂ + a)).take b) := by
  rw [seg_split, seg_split, List.zipWith_append]
  rw [seg_length _ _ _ (by omega), seg_length _ _ _ (by omega)]

theorem zip_seg_flatMap {α₁ α₂ β : Type*} (prod : α₁ → α₂ → β) (m1 : List α₁) (m2 : List α₂)
    (p₁ p₂ W n : Nat) (h1 : p₁ + n * W ≤ m1.length) (h2 : p₂ + n * W ≤ m2.length) :
    (List.range n).flatMap (fun k => List.zipWith prod ((m1.drop (p₁ + k * W)).take W)
      ((m2.drop (p₂ + k * W)).take W)) =
      List.zipWith prod ((m1.drop p₁).take (n * W)) ((m2.drop p₂).take (n * W)) := by
  induction n with
  | zero => simp
  | succ n ih =>
    rw [Nat.add_mul, Nat.one_mul] at h1 h2
    rw [List.range_succ, List.flatMap_append, ih (by omega) (by omega), Nat.add_mul, Nat.one_mul,
      zip_seg prod m1 m2 p₁ p₂ _ _ h1 h2]
    simp

theorem innerProduct_tree {α₁ α₂ β : Type u} {vec : Bool} {W : Nat} (hW : vec = true → 0 < W)
    {r : ReduceOp β} (hr : r.ExactOn fun _ => True) {red₁ red₂ : Reducer β}
    (h₁ : IsReduction red₁) (h₂ : IsReduction red₂) (prod : α₁ → α₂ → β)
    (m1 : List α₁) (m2 : List α₂) (p₁ count p₂ : Nat)
    (hb1 : p₁ + count ≤ m1.length) (hb2 : p₂ + count ≤ m2.length) (init : β) :
    ∃ t : OpTree β, t.leaves.Perm (init :: List.zipWith prod ((m1.drop p₁).take count)
        ((m2.drop p₂).take count)) ∧
      innerProduct vec W red₁ red₂ prod m1 m2 p₁ count p₂ init r = .ok (t.eval r.op) := by
  cases vec with
  | false =>
    rcases Nat.eq_zero_or_pos count with rfl | hpos
    · obtain ⟨t, hl, he⟩ := reduceExplicit_tree (load := fun q => do
        let a ← rd m1 ((p₁ + q : Nat) : Int)
        let b ← rd m2 ((p₂ + q : Nat) : Int)
        pure (prod a b)) (stride := 1)
        Nat.one_pos hr (fun _ => init) 0 0 init trivial (by simp)
      refine ⟨t, by rw [hl]; simp, ?_⟩
      simpa [innerProduct] using he
    · have i1 : p₁ < m1.length := by omega
      have i2 : p₂ < m2.length := by omega
      obtain ⟨t, hl, he⟩ := reduceExplicit_tree (load := fun q => do
        let a ← rd m1 ((p₁ + q : Nat) : Int)
        let b ← rd m2 ((p₂ + q : Nat) : Int)
        pure (prod a b)) (stride := 1)
        Nat.one_pos hr (fun j => prod (m1.getD (p₁ + j) m1[p₁]) (m2.getD (p₂ + j) m2[p₂])) count 0
        init trivial (by
          intro j hj
          refine ⟨?_, trivial⟩
          have j1 : p₁ + j < m1.length := by omega
          have j2 : p₂ + j < m2.length := by omega
          simp only [Nat.mul_one, Nat.zero_add]
          rw [rd_ofNat j1, rd_ofNat j2, List.getD_eq_getElem _ _ j1, List.getD_eq_getElem _ _ j2]
          rfl)
      refine ⟨t, ?_, ?_⟩
      · rw [hl]
        refine List.Perm.cons _ (List.Perm.of_eq ?_)
        apply List.ext_getElem
        · simp; omega
        · intro i g1 g2
          have g : i < count := by simpa using g1
          have j1 : p₁ + i < m1.length := by omega
          have j2 : p₂ + i < m2.length := by omega
          simp [j1, j2]
      · rw [Nat.mul_one, Nat.zero_add] at he
        simpa [innerProduct] using he
  | true =>
    have hW := hW rfl
    simp only [innerProduct, if_true]
    by_cases hv : count / W = 0
    · obtain ⟨t, hp, he⟩ := h₂ r.op init (List.zipWith prod ((m1.drop p₁).take count)
        ((m2.drop p₂).take count))
      refine ⟨t, hp, ?_⟩
      simp only [hv, ne_eq, not_true_eq_false, if_false, Nat.sub_zero, Nat.add_zero, loadV_ok hb1,
        loadV_ok hb2, Out.ok_bind, Out.pure_def, he]
    · obtain ⟨n, hn⟩ : ∃ n, count / W = n + 1 := Nat.exists_eq_succ_of_ne_zero hv
      have hnW : (n + 1) * W ≤ count := by rw [← hn]; exact Nat.div_mul_le_self ..
      have hnW' : n * W + W = (n + 1) * W := by ring
      obtain ⟨res, hres, t1, ht1, he1⟩ := register_tree
        (load := fun q => do
          let a ← loadV W m1 (p₁ + q)
          let b ← loadV W m2 (p₂ + q)
          pure (List.zipWith prod a b)) hW hr h₁
        (fun k => List.zipWith prod ((m1.drop (p₁ + W + k * W)).take W)
          ((m2.drop (p₂ + W + k * W)).take W)) n (1 * W)
        (List.zipWith prod ((m1.drop p₁).take W) ((m2.drop p₂).take W)) init
        (by rw [List.length_zipWith, seg_length _ _ _ (by omega), seg_length _ _ _ (by omega)]; simp)
        (by
          intro j hj
          have hj' : (j + 1) * W ≤ n * W := Nat.mul_le_mul_right _ hj
          rw [Nat.add_mul, Nat.one_mul] at hj'
          have e1 : p₁ + (1 * W + j * W) = p₁ + W + j * W := by ring
          have e2 : p₂ + (1 * W + j * W) = p₂ + W + j * W := by ring
          have b1 : p₁ + W + j * W + W ≤ m1.length := by omega
          have b2 : p₂ + W + j * W + W ≤ m2.length := by omega
          refine ⟨?_, ?_⟩
          · simp only [e1, e2, loadV_ok b1, loadV_ok b2, Out.ok_bind, Out.pure_def]
          · rw [List.length_zipWith, seg_length _ _ _ b1, seg_length _ _ _ b2]; simp)
      have hpos : 1 * W + n * W = (n + 1) * W := by ring
      rw [hpos] at hres
      simp only [Out.pure_def] at hres
      have hl1 : p₁ + W ≤ m1.length := by omega
      have hl2 : p₂ + W ≤ m2.length := by omega
      obtain ⟨t, hp, he⟩ := tail_tree (op := r.op) h₂ t1 _
        (List.zipWith prod ((m1.drop (p₁ + (n + 1) * W)).take (count - (n + 1) * W))
          ((m2.drop (p₂ + (n + 1) * W)).take (count - (n + 1) * W))) ht1
      refine ⟨t, hp.trans (List.Perm.of_eq ?_), ?_⟩
      · rw [zip_seg_flatMap prod m1 m2 (p₁ + W) (p₂ + W) W n (by omega) (by omega),
          List.cons_append, ← zip_seg prod m1 m2 p₁ p₂ W (n * W) (by omega) (by omega)]
        have : W + n * W = (n + 1) * W := by ring
        rw [this, ← zip_seg prod m1 m2 p₁ p₂ _ _ (by omega) (by omega)]
        have : (n + 1) * W + (count - (n + 1) * W) = count := by omega
        rw [this]
      · have hlt1 : p₁ + (n + 1) * W + (count - (n + 1) * W) ≤ m1.length := by omega
        have hlt2 : p₂ + (n + 1) * W + (count - (n + 1) * W) ≤ m2.length := by omega
        simp only [hn, ne_eq, Nat.succ_ne_zero, not_false_eq_true, if_true, loadV_ok hl1,
          loadV_ok hl2, Out.ok_bind, hres, loadV_ok hlt1, loadV_ok hlt2, Out.pure_def, he1, he]

/-! ## Element-wise transforms -/

/-- What memory looks like after the first `c` outputs have been produced. -/
def Done {α : Type*} (f : Nat → α) (mem : List α) (pout c : Nat) (mem' : List α) : Prop :=
  mem'.length = mem.length ∧
  ∀ j, mem'[j]? = if pout ≤ j ∧ j < pout + c then some (f (j - pout)) else mem[j]?

theorem Done.extend {α : Type*} {f : Nat → α} {mem mem' : List α} {pout c : Nat} {v : List α}
    (h : Done f mem pout c mem') (hb : pout + c + v.length ≤ mem.length)
    (hv : ∀ i, i < v.length → v[i]? = some (f (c + i))) :
    ∃ mem'', storeV mem' (pout + c) v = .ok mem'' ∧ Done f mem pout (c + v.length) mem'' := by
  have hb' : pout + c + v.length ≤ mem'.length := by rw [h.1]; exact hb
  refine ⟨_, storeV_ok hb', ?_, ?_⟩
  · have := h.1
    simp only [List.length_append, List.length_take, List.length_drop]
    omega
  · intro j
    rw [store_get _ _ _ hb']
    split
    · rename_i hj
      rw [if_pos (by omega), hv _ (by omega)]
      congr 2; omega
    · rename_i hj
      rw [h.2 j]
      split
      · rename_i hj'
        rw [if_pos (by omega)]
      · rw [if_neg (by omega)]

theorem wr_eq_storeV {α : Type u} (mem : List α) (p : Nat) (x : α) (h : p < mem.length) :
    wr mem (p : Int) x = storeV mem p [x] := by
  rw [wr_eq (by omega) (by omega), storeV_ok (by simp; omega)]
  congr 1
  simp [List.set_eq_take_append_cons_drop, h]

theorem Done.read {α : Type*} {f : Nat → α} {mem mem' : List α} {pin pout c count i : Nat}
    (h : Done f mem pout c mem') (hal : pout ≤ pin ∨ pin + count ≤ pout)
    (hi : c + i < count) : mem'[pin + c + i]? = mem[pin + c + i]? := by
  rw [h.2, if_neg (by omega)]

theorem transform1_done {α : Type u} (vec : Bool) (W : Nat) (op : α → α) (mem : List α)
    (pin count pout : Nat) (d : α) (h1 : pin + count ≤ mem.length) (h2 : pout + count ≤ mem.length)
    (hal : pout ≤ pin ∨ pin + count ≤ pout) :
    ∃ mem', transform1 vec W op mem pin count pout = .ok mem' ∧
      Done (fun i => op (mem.getD (pin + i) d)) mem pout count mem' := by
  set f := fun i => op (mem.getD (pin + i) d) with hf
  have hvc : (if vec then count / W else 0) * W ≤ count := by
    split
    · exact Nat.div_mul_le_self ..
    · simp
  unfold transform1
  generalize (if vec then count / W else 0) = n at hvc
  simp only []
  obtain ⟨m1, e1, d1⟩ := forN_inv (body := fun k mem => do
      let v ← loadV W mem (pin + k * W)
      storeV mem (pout + k * W) (v.map op)) (fun k m => Done f mem pout (k * W) m) n mem
    ⟨rfl, fun j => by rw [if_neg (by omega)]⟩ (by
      intro k m hk hd
      have hkW : (k + 1) * W ≤ n * W := Nat.mul_le_mul_right _ hk
      rw [Nat.add_mul, Nat.one_mul] at hkW
      have hlen := hd.1
      have hl : pin + k * W + W ≤ m.length := by omega
      rw [loadV_ok hl, Out.ok_bind]
      have hlv : ((m.drop (pin + k * W)).take W).length = W := seg_length _ _ _ hl
      obtain ⟨m', he, hd'⟩ := hd.extend (v := ((m.drop (pin + k * W)).take W).map op)
        (by rw [List.length_map, hlv]; omega) (by
          intro i hi
          rw [List.length_map, hlv] at hi
          rw [List.getElem?_map, seg_get _ _ _ _ hi, hd.read (count := count) hal (by omega)]
          have : pin + k * W + i < mem.length := by omega
          rw [List.getElem?_eq_getElem this]
          simp only [hf, Option.map_some]
          rw [List.getD_eq_getElem _ _ (by omega)]
          congr 3; omega)
      rw [List.length_map, hlv] at hd'
      exact ⟨m', he, by rwa [Nat.add_mul, Nat.one_mul]⟩)
  rw [e1, Out.ok_bind]
  obtain ⟨m2, e2, d2⟩ := forN_inv (body := fun k mem => do
      let x ← rd mem ((pin + n * W + k : Nat) : Int)
      wr mem ((pout + n * W + k : Nat) : Int) (op x))
    (fun k m => Done f mem pout (n * W + k) m) (count - n * W) m1 d1 (by
      intro k m hk hd
      have hlen := hd.1
      have hr := hd.read (count := count) (i := 0) hal (by omega)
      have hin : pin + n * W + k < m.length := by omega
      rw [rd_ofNat hin, Out.ok_bind]
      rw [wr_eq_storeV _ _ _ (by omega)]
      obtain ⟨m', he, hd'⟩ := hd.extend (v := [op m[pin + n * W + k]]) (by simp; omega) (by
        intro i hi
        simp only [List.length_singleton, Nat.lt_one_iff] at hi
        subst hi
        have hr' : m[pin + n * W + k]? = mem[pin + n * W + k]? := by
          rw [← Nat.add_assoc] at hr; simpa using hr
        rw [List.getElem?_eq_getElem hin, List.getElem?_eq_getElem (by omega)] at hr'
        injection hr' with hr'
        simp only [List.getElem?_cons_zero, hf]
        rw [hr', List.getD_eq_getElem _ _ (by omega)]
        congr 3 <;> omega)
      exact ⟨m', by rw [← he, Nat.add_assoc], by simpa [Nat.add_assoc] using hd'⟩)
  refine ⟨m2, e2, ?_⟩
  have : n * W + (count - n * W) = count := by omega
  rwa [this] at d2

theorem transform2_done {α : Type u} (vec : Bool) (W : Nat) (op : α → α → α) (mem : List α)
    (pin₁ count pin₂ pout : Nat) (d : α) (h1 : pin₁ + count ≤ mem.length)
    (h1' : pin₂ + count ≤ mem.length) (h2 : pout + count ≤ mem.length)
    (hal : pout ≤ pin₁ ∨ pin₁ + count ≤ pout) (hal' : pout ≤ pin₂ ∨ pin₂ + count ≤ pout) :
    ∃ mem', transform2 vec W op mem pin₁ count pin₂ pout = .ok mem' ∧
      Done (fun i => op (mem.getD (pin₁ + i) d) (mem.getD (pin₂ + i) d)) mem pout count mem' := by
  set f := fun i => op (mem.getD (pin₁ + i) d) (mem.getD (pin₂ + i) d) with hf
  have hvc : (if vec then count / W else 0) * W ≤ count := by
    split
    · exact Nat.div_mul_le_self ..
    · simp
  unfold transform2
  generalize (if vec then count / W else 0) = n at hvc
  simp only []
  obtain ⟨m1, e1, d1⟩ := forN_inv (body := fun k mem => do
      let v₁ ← loadV W mem (pin₁ + k * W)
      let v₂ ← loadV W mem (pin₂ + k * W)
      storeV mem (pout + k * W) (List.zipWith op v₁ v₂)) (fun k m => Done f mem pout (k * W) m) n mem
    ⟨rfl, fun j => by rw [if_neg (by omega)]⟩ (by
      intro k m hk hd
      have hkW : (k + 1) * W ≤ n * W := Nat.mul_le_mul_right _ hk
      rw [Nat.add_mul, Nat.one_mul] at hkW
      have hlen := hd.1
      have hl : pin₁ + k * W + W ≤ m.length := by omega
      have hl' : pin₂ + k * W + W ≤ m.length := by omega
      rw [loadV_ok hl, loadV_ok hl', Out.ok_bind, Out.ok_bind]
      have hlv : (List.zipWith op ((m.drop (pin₁ + k * W)).take W)
          ((m.drop (pin₂ + k * W)).take W)).length = W := by
        rw [List.length_zipWith, seg_length _ _ _ hl, seg_length _ _ _ hl']; simp
      obtain ⟨m', he, hd'⟩ := hd.extend (v := List.zipWith op ((m.drop (pin₁ + k * W)).take W)
          ((m.drop (pin₂ + k * W)).take W))
        (by rw [hlv]; omega) (by
          intro i hi
          rw [hlv] at hi
          rw [List.getElem?_zipWith, seg_get _ _ _ _ hi, seg_get _ _ _ _ hi,
            hd.read (count := count) hal (by omega), hd.read (count := count) hal' (by omega)]
          have g1 : pin₁ + k * W + i < mem.length := by omega
          have g2 : pin₂ + k * W + i < mem.length := by omega
          rw [List.getElem?_eq_getElem g1, List.getElem?_eq_getElem g2]
          simp only [hf]
          rw [List.getD_eq_getElem _ _ (by omega), List.getD_eq_getElem _ _ (by omega)]
          congr 3 <;> omega)
      rw [hlv] at hd'
      exact ⟨m', he, by rwa [Nat.add_mul, Nat.one_mul]⟩)
  rw [e1, Out.ok_bind]
  obtain ⟨m2, e2, d2⟩ := forN_inv (body := fun k mem => do
      let x ← rd mem ((pin₁ + n * W + k : Nat) : Int)
      let y ← rd mem ((pin₂ + n * W + k : Nat) : Int)
      wr mem ((pout + n * W + k : Nat) : Int) (op x y))
    (fun k m => Done f mem pout (n * W + k) m) (count - n * W) m1 d1 (by
      intro k m hk hd
      have hlen := hd.1
      have hr := hd.read (count := count) (i := 0) hal (by omega)
      have hr2 := hd.read (count := count) (i := 0) hal' (by omega)
      have hin : pin₁ + n * W + k < m.length := by omega
      have hin2 : pin₂ + n * W + k < m.length := by omega
      rw [rd_ofNat hin, rd_ofNat hin2, Out.ok_bind, Out.ok_bind]
      rw [wr_eq_storeV _ _ _ (by omega)]
      obtain ⟨m', he, hd'⟩ := hd.extend (v := [op m[pin₁ + n * W + k] m[pin₂ + n * W + k]])
        (by simp; omega) (by
        intro i hi
        simp only [List.length_singleton, Nat.lt_one_iff] at hi
        subst hi
        have hr' : m[pin₁ + n * W + k]? = mem[pin₁ + n * W + k]? := by
          rw [← Nat.add_assoc] at hr; simpa using hr
        have hr2' : m[pin₂ + n * W + k]? = mem[pin₂ + n * W + k]? := by
          rw [← Nat.add_assoc] at hr2; simpa using hr2
        rw [List.getElem?_eq_getElem hin, List.getElem?_eq_getElem (by omega)] at hr'
        rw [List.getElem?_eq_getElem hin2, List.getElem?_eq_getElem (by omega)] at hr2'
        injection hr' with hr'
        injection hr2' with hr2'
        simp only [List.getElem?_cons_zero, hf]
        rw [hr', hr2', List.getD_eq_getElem _ _ (by omega), List.getD_eq_getElem _ _ (by omega)]
        congr 3 <;> omega)
      exact ⟨m', by rw [← he, Nat.add_assoc], by simpa [Nat.add_assoc] using hd'⟩)
  refine ⟨m2, e2, ?_⟩
  have : n * W + (count - n * W) = count := by omega
  rwa [this] at d2

/-! ## Compensated addition in exact arithmetic -/

theorem plusCompensated_exact {β : Type*} [AddCommGroup β] :
    (plusCompensated : ReduceOp β).ExactOn fun _ => True := by
  refine ⟨fun _ _ _ _ => trivial, ?_⟩
  intro c0 f h s x _ _
  simp only [plusCompensated, Option.some.injEq, Prod.mk.injEq] at h
  obtain ⟨rfl, rfl⟩ := h
  simp [plusCompensated]

theorem plain_exact {β : Type*} (op : β → β → β) : (plainOp op).ExactOn fun _ => True :=
  ⟨fun _ _ _ _ => trivial, by intro c0 f h; simp [plainOp] at h⟩

theorem eval_add {β : Type*} [AddCommMonoid β] (t : OpTree β) :
    t.eval (· + ·) = t.leaves.sum := by
  induction t with
  | leaf b => simp [eval, leaves]
  | node l r ihl ihr => simp [eval, leaves, ihl, ihr]

end Verif
