import Verif.Spec.Matlab
import Verif.Lemmas.MatlabMask

/-!
# Lemmas on the cone of the reduced program
-/

namespace Verif.Matlab

open Spec

/-- The members of a clique in increasing order. -/
def sorted (n : Nat) (c : List Nat) : List Nat := (List.range n).filter fun i => c.contains i

theorem mem_sorted {n : Nat} {c : List Nat} (hc : ∀ i ∈ c, i < n) (i : Nat) :
    i ∈ sorted n c ↔ i ∈ c := by
  simp only [sorted, List.mem_filter, List.mem_range, List.contains_iff_mem]
  exact ⟨fun h => h.2, fun h => ⟨hc i h, h⟩⟩

theorem sorted_nodup (n : Nat) (c : List Nat) : (sorted n c).Nodup := List.nodup_range.filter _

theorem sorted_length {n : Nat} {c : List Nat} (hc : ∀ i ∈ c, i < n) (hn : c.Nodup) :
    (sorted n c).length = c.length :=
  List.Perm.length_eq ((List.perm_ext_iff_of_nodup (sorted_nodup n c) hn).2 (mem_sorted hc))

theorem range_mul (n k : Nat) :
    List.range (n * k) = (List.range k).flatMap fun j => (List.range n).map fun i => i + n * j := by
  induction k with
  | zero => simp
  | succ k ih =>
    rw [Nat.mul_succ, List.range_add, ih, List.range_succ, List.flatMap_append]
    congr 1
    simp [Nat.add_comm]

theorem flatMap_if {α : Type} (p : Nat → Bool) (g : Nat → List α) (l : List Nat) :
    (l.flatMap fun j => if p j then g j else []) = (l.filter p).flatMap g := by
  induction l with
  | nil => rfl
  | cons a l ih =>
    rw [List.flatMap_cons, ih]
    cases hp : p a
    · simp [hp]
    · simp [hp]

theorem subMatIndex_eq (off n : Nat) (c : List Nat) :
    subMatIndex off n c = (sorted n c).flatMap fun j => (sorted n c).map fun i => pos off n i j := by
  unfold subMatIndex
  rw [range_mul, List.filter_flatMap, List.map_flatMap]
  have key : ∀ j ∈ List.range n, List.map (off + ·) (((List.range n).map fun i => i + n * j).filter
      fun k => c.contains (k % n) && c.contains (k / n)) =
      if c.contains j then (sorted n c).map fun i => pos off n i j else [] := by
    intro j _
    rw [List.filter_map, List.map_map]
    have : (List.range n).filter ((fun k => c.contains (k % n) && c.contains (k / n)) ∘
        fun i => i + n * j) = (List.range n).filter fun i => c.contains i && c.contains j := by
      refine List.filter_congr fun i hi => ?_
      have hi := List.mem_range.1 hi
      simp only [Function.comp]
      rw [Nat.add_mul_mod_self_left, Nat.mod_eq_of_lt hi, Nat.add_mul_div_left _ _ (by omega),
        Nat.div_eq_of_lt hi, Nat.zero_add]
    rw [this]
    by_cases hj : c.contains j
    · simp only [hj, Bool.and_true, if_true]
      rfl
    · simp only [hj, Bool.and_false, List.filter_false, List.map_nil]
      rfl
  rw [List.flatMap_congr key]
  exact flatMap_if _ _ _

theorem getD_flatMap {α : Type} (g : Nat → Nat → α) (z : α) (σ : List Nat) : ∀ (l : List Nat) (t : Nat) (a b : Nat),
    a < σ.length → b < l.length → t = a + σ.length * b →
    (l.flatMap fun j => σ.map fun i => g i j)[t]? = some (g (σ.getD a 0) (l.getD b 0)) := by
  intro l
  induction l with
  | nil => intro t a b _ hb; simp at hb
  | cons x l ih =>
    intro t a b ha hb ht
    rw [List.flatMap_cons]
    cases b with
    | zero =>
      have ht' : t = a := by simpa using ht
      subst ht'
      rw [List.getElem?_append_left (by simpa using ha), List.getElem?_map,
        List.getElem?_eq_getElem ha, List.getD_eq_getElem?_getD, List.getElem?_eq_getElem ha]
      simp
    | succ b =>
      have hb' : b < l.length := by simpa using hb
      have ht' : t = σ.length + (a + σ.length * b) := by rw [ht, Nat.mul_succ]; omega
      rw [List.getElem?_append_right (by simp; omega), ih (t - (σ.map fun i => g i x).length) a b ha hb'
        (by simp; omega)]
      simp

theorem subMatIndex_get {off n : Nat} {c : List Nat} {a b : Nat} (ha : a < (sorted n c).length)
    (hb : b < (sorted n c).length) :
    (subMatIndex off n c)[a + (sorted n c).length * b]? =
      some (pos off n ((sorted n c).getD a 0) ((sorted n c).getD b 0)) := by
  rw [subMatIndex_eq]
  exact getD_flatMap (pos off n) 0 (sorted n c) (sorted n c) _ a b ha hb rfl

theorem subMatIndex_length (off n : Nat) (c : List Nat) :
    (subMatIndex off n c).length = (sorted n c).length * (sorted n c).length := by
  rw [subMatIndex_eq, List.length_flatMap]
  simp

theorem mem_subMatIndex {off n : Nat} {c : List Nat} (hc : ∀ i ∈ c, i < n) (k : Nat) :
    k ∈ subMatIndex off n c ↔ ∃ i ∈ c, ∃ j ∈ c, k = pos off n i j := by
  rw [subMatIndex_eq]
  simp only [List.mem_flatMap, List.mem_map, mem_sorted hc]
  constructor
  · rintro ⟨j, hj, i, hi, rfl⟩
    exact ⟨i, hi, j, hj, rfl⟩
  · rintro ⟨i, hi, j, hj, rfl⟩
    exact ⟨j, hj, i, hi, rfl⟩

theorem subMatIndex_nodup (off n : Nat) (c : List Nat) : (subMatIndex off n c).Nodup := by
  unfold subMatIndex
  exact (List.nodup_range.filter _).map (fun a b h => by simpa using h)

theorem pos_inj {off n i j i' j' : Nat} (hi : i < n) (hi' : i' < n) (h : pos off n i j = pos off n i' j') :
    i = i' ∧ j = j' := by
  have h1 := congrArg (fun k => (k - off) % n) h
  have h2 := congrArg (fun k => (k - off) / n) h
  simp only [pos_mod hi, pos_mod hi', pos_div hi, pos_div hi'] at h1 h2
  exact ⟨h1, h2⟩

/-! ### The index of the mask -/

theorem maskIndex_mem : ∀ {s : List Nat} {off : Nat} {M : Nat → Bool} {cls : List (List (List Nat))},
    Masked s off M cls → ∀ k, k ∈ maskIndex s off cls ↔ off ≤ k ∧ k < off + numVar s ∧ M k = true := by
  intro s
  induction s with
  | nil =>
    intro off M cls h k
    simp only [maskIndex, numVar, List.not_mem_nil, false_iff]
    omega
  | cons n ns ih =>
    intro off M cls h k
    cases cls with
    | nil => exact h.elim
    | cons cl cls =>
      obtain ⟨⟨h1, h2⟩, h3⟩ := h
      simp only [maskIndex, List.mem_append, List.mem_flatMap, ih h3, numVar]
      constructor
      · rintro (⟨c, hc, hk⟩ | ⟨k1, k2, k3⟩)
        · obtain ⟨i, hi, j, hj, rfl⟩ := (mem_subMatIndex (h1.lt c hc) k).1 hk
          have li := h1.lt c hc i hi
          have lj := h1.lt c hc j hj
          have b := pos_bounds (off := off) li lj
          exact ⟨b.1, by omega, (h2 i j li lj).2 ⟨c, hc, hi, hj⟩⟩
        · exact ⟨by omega, by omega, k3⟩
      · rintro ⟨k1, k2, k3⟩
        by_cases hr : k < off + n * n
        · left
          obtain ⟨e1, e2, e3⟩ := pos_of k1 hr
          rw [← e3] at k3 ⊢
          obtain ⟨c, hc, hi, hj⟩ := (h2 _ _ e1 e2).1 k3
          exact ⟨c, hc, (mem_subMatIndex (h1.lt c hc) _).2 ⟨_, hi, _, hj, rfl⟩⟩
        · exact .inr ⟨by omega, by omega, k3⟩

theorem maskIndex_nodup : ∀ {s : List Nat} {off : Nat} {M : Nat → Bool} {cls : List (List (List Nat))},
    Masked s off M cls → (maskIndex s off cls).Nodup := by
  intro s
  induction s with
  | nil => intro off M cls h; simp [maskIndex]
  | cons n ns ih =>
    intro off M cls h
    cases cls with
    | nil => exact h.elim
    | cons cl cls =>
      have hm := @maskIndex_mem ns (off + n * n) M cls h.2
      obtain ⟨⟨h1, h2⟩, h3⟩ := h
      simp only [maskIndex]
      refine List.nodup_append.2 ⟨?_, ih h3, fun a ha b hb hab => ?_⟩
      · have hlt := h1.lt
        have hnd := h1.nodup
        clear h1 h2 hm
        induction cl with
        | nil => simp
        | cons c cl ihc =>
          rw [List.flatten_cons, List.nodup_append] at hnd
          rw [List.flatMap_cons]
          refine List.nodup_append.2 ⟨subMatIndex_nodup _ _ _,
            ihc (fun c hc => hlt c (by simp [hc])) hnd.2.1, fun a ha b hb hab => ?_⟩
          subst hab
          obtain ⟨i, hi, j, hj, rfl⟩ := (mem_subMatIndex (hlt c (by simp)) a).1 ha
          obtain ⟨c', hc', hk⟩ := List.mem_flatMap.1 hb
          obtain ⟨i', hi', j', hj', he⟩ := (mem_subMatIndex (hlt c' (by simp [hc'])) _).1 hk
          have := (pos_inj (hlt c (by simp) i hi) (hlt c' (by simp [hc']) i' hi') he).1
          exact hnd.2.2 i hi i' (List.mem_flatten.2 ⟨c', hc', hi'⟩) this
      · subst hab
        obtain ⟨c, hc, hk⟩ := List.mem_flatMap.1 ha
        obtain ⟨i, hi, j, hj, rfl⟩ := (mem_subMatIndex (h1.lt c hc) a).1 hk
        have b1 := pos_bounds (off := off) (h1.lt c hc i hi) (h1.lt c hc j hj)
        have b2 := (hm _).1 hb
        omega

/-! ### Positive semidefinite matrices with a block structure -/

/-- The principal submatrix of a clique. -/
noncomputable def sub (off n : Nat) (x : Nat → ℝ) (c : List Nat) :
    Matrix (Fin c.length) (Fin c.length) ℝ :=
  Matrix.of fun i j => x (pos off n ((sorted n c).getD i 0) ((sorted n c).getD j 0))

theorem sub_psd {off n : Nat} {x : Nat → ℝ} {c : List Nat} (hc : ∀ i ∈ c, i < n) (hn : c.Nodup)
    (h : (Matrix.of fun i j : Fin n => x (off + (i + n * j))).PosSemidef) :
    (sub off n x c).PosSemidef := by
  have hl := sorted_length hc hn
  have hlt : ∀ a : Fin c.length, (sorted n c).getD a 0 < n := by
    intro a
    have ha : (a : Nat) < (sorted n c).length := by rw [hl]; exact a.2
    rw [List.getD_eq_getElem?_getD, List.getElem?_eq_getElem ha, Option.getD_some]
    exact hc _ ((mem_sorted hc _).1 (List.getElem_mem ha))
  exact h.submatrix (fun a : Fin c.length => (⟨(sorted n c).getD a 0, hlt a⟩ : Fin n))

/-- The matrix restricted to a clique. -/
noncomputable def part (off n : Nat) (x : Nat → ℝ) (c : List Nat) : Matrix (Fin n) (Fin n) ℝ :=
  Matrix.of fun i j => if (i : Nat) ∈ c ∧ (j : Nat) ∈ c then x (off + (i + n * j)) else 0

theorem part_psd {off n : Nat} {x : Nat → ℝ} {c : List Nat} (hc : ∀ i ∈ c, i < n) (hn : c.Nodup)
    (h : (sub off n x c).PosSemidef) : (part off n x c).PosSemidef := by
  have hl := sorted_length hc hn
  set e : Fin c.length → Nat := fun a => (sorted n c).getD a 0 with he
  have hmem : ∀ a, e a ∈ c := by
    intro a
    have ha : (a : Nat) < (sorted n c).length := by rw [hl]; exact a.2
    simp only [he]
    rw [List.getD_eq_getElem?_getD, List.getElem?_eq_getElem ha, Option.getD_some]
    exact (mem_sorted hc _).1 (List.getElem_mem ha)
  have hinj : Function.Injective e := by
    intro a b hab
    have ha : (a : Nat) < (sorted n c).length := by rw [hl]; exact a.2
    have hb : (b : Nat) < (sorted n c).length := by rw [hl]; exact b.2
    simp only [he, List.getD_eq_getElem?_getD, List.getElem?_eq_getElem ha,
      List.getElem?_eq_getElem hb, Option.getD_some] at hab
    exact Fin.ext ((sorted_nodup n c).getElem_inj_iff.1 hab)
  have hsurj : ∀ i ∈ c, ∃ a, e a = i := by
    intro i hi
    obtain ⟨a, ha, hai⟩ := List.mem_iff_getElem.1 ((mem_sorted hc i).2 hi)
    refine ⟨⟨a, by rw [← hl]; exact ha⟩, ?_⟩
    simp only [he, List.getD_eq_getElem?_getD, List.getElem?_eq_getElem ha, Option.getD_some]
    exact hai
  let E : Matrix (Fin n) (Fin c.length) ℝ := Matrix.of fun i a => if e a = i then 1 else 0
  have key : part off n x c = E * sub off n x c * E.conjTranspose := by
    ext i j
    rw [Matrix.mul_apply]
    simp only [Matrix.mul_apply, Matrix.conjTranspose_apply, E, Matrix.of_apply, part,
      star_trivial]
    by_cases hi : (i : Nat) ∈ c
    · obtain ⟨a, ha⟩ := hsurj i hi
      by_cases hj : (j : Nat) ∈ c
      · obtain ⟨b, hb⟩ := hsurj j hj
        rw [if_pos ⟨hi, hj⟩, Finset.sum_eq_single b, Finset.sum_eq_single a, if_pos ha, if_pos hb, one_mul,
          mul_one]
        · show _ = x (pos off n (e a) (e b))
          rw [ha, hb]
          rfl
        · intro a' _ hne
          rw [if_neg (fun h => hne (hinj (h.trans ha.symm))), zero_mul]
        · simp
        · intro b' _ hne
          rw [if_neg (fun h => hne (hinj (h.trans hb.symm))), mul_zero]
        · simp
      · rw [if_neg (fun h => hj h.2), Finset.sum_eq_zero]
        intro b _
        rw [if_neg (fun h : e b = j => hj (h ▸ hmem b)), mul_zero]
    · rw [if_neg (fun h => hi h.1), Finset.sum_eq_zero]
      intro b _
      rw [Finset.sum_eq_zero, zero_mul]
      intro a _
      rw [if_neg (fun h : e a = i => hi (h ▸ hmem a)), zero_mul]
  rw [key]
  exact h.mul_mul_conjTranspose_same E

theorem blocks_psd {off n : Nat} {x : Nat → ℝ} : ∀ {cl : List (List Nat)}, (∀ c ∈ cl, ∀ i ∈ c, i < n) →
    cl.flatten.Nodup → (∀ c ∈ cl, (sub off n x c).PosSemidef) →
    (Matrix.of fun i j : Fin n => if ∃ c ∈ cl, (i : Nat) ∈ c ∧ (j : Nat) ∈ c then
      x (off + (i + n * j)) else (0 : ℝ)).PosSemidef := by
  intro cl
  induction cl with
  | nil =>
    intro _ _ _
    have : (Matrix.of fun i j : Fin n => if ∃ c ∈ ([] : List (List Nat)), (i : Nat) ∈ c ∧ (j : Nat) ∈ c then
      x (off + (i + n * j)) else (0 : ℝ)) = 0 := by
      ext i j
      simp
    rw [this]
    exact Matrix.PosSemidef.zero
  | cons c cl ih =>
    intro hlt hnd hpsd
    rw [List.flatten_cons, List.nodup_append] at hnd
    have h1 := part_psd (hlt c (by simp)) hnd.1 (hpsd c (by simp))
    have h2 := ih (fun c hc => hlt c (by simp [hc])) hnd.2.1 (fun c hc => hpsd c (by simp [hc]))
    have key := h1.add h2
    refine (congrArg Matrix.PosSemidef ?_).mp key
    ext i j
    simp only [part, Matrix.add_apply, Matrix.of_apply]
    by_cases hi : (i : Nat) ∈ c ∧ (j : Nat) ∈ c
    · rw [if_pos hi, if_neg, add_zero, if_pos ⟨c, by simp, hi⟩]
      rintro ⟨c', hc', hi', -⟩
      exact hnd.2.2 i hi.1 i (List.mem_flatten.2 ⟨c', hc', hi'⟩) rfl
    · rw [if_neg hi, zero_add]
      by_cases he : ∃ c ∈ cl, (i : Nat) ∈ c ∧ (j : Nat) ∈ c
      · obtain ⟨c', hc', h'⟩ := he
        rw [if_pos ⟨c', hc', h'⟩, if_pos ⟨c', by simp [hc'], h'⟩]
      · rw [if_neg he, if_neg]
        rintro ⟨c', hc', h'⟩
        rcases List.mem_cons.1 hc' with rfl | hc'
        · exact hi h'
        · exact he ⟨c', hc', h'⟩

/-! ### The cone of the reduced program -/

theorem cone_append : ∀ (l r : List Nat) (off : Nat) (x : Nat → ℝ),
    Cone (l ++ r) off x ↔ Cone l off x ∧ Cone r (off + numVar l) x := by
  intro l
  induction l with
  | nil => intro r off x; simp [Cone, numVar]
  | cons n l ih =>
    intro r off x
    simp only [List.cons_append, Cone, ih, numVar, and_assoc, Nat.add_assoc]

theorem cone_congr : ∀ {s : List Nat} {off off' : Nat} {x x' : Nat → ℝ},
    (∀ t, t < numVar s → x' (off' + t) = x (off + t)) → (Cone s off x ↔ Cone s off' x') := by
  intro s
  induction s with
  | nil => exact fun _ => Iff.rfl
  | cons n ns ih =>
    intro off off' x x' h
    simp only [numVar] at h
    simp only [Cone]
    refine and_congr ?_ (ih fun t ht => by
      have := h (n * n + t) (by omega)
      simpa [Nat.add_assoc] using this)
    have : (Matrix.of fun i j : Fin n => x (off + (i + n * j))) =
        Matrix.of fun i j : Fin n => x' (off' + (i + n * j)) := by
      ext i j
      have hb := pos_bounds (off := 0) i.2 j.2
      unfold pos at hb
      exact (h _ (by omega)).symm
    rw [this]

theorem cone_cliques {off n : Nat} {x : Nat → ℝ} : ∀ {cl : List (List Nat)} {off' : Nat} {x' : Nat → ℝ},
    (∀ c ∈ cl, ∀ i ∈ c, i < n) → (∀ c ∈ cl, c.Nodup) →
    (∀ t, t < (cl.flatMap (subMatIndex off n)).length →
      x' (off' + t) = x ((cl.flatMap (subMatIndex off n)).getD t 0)) →
    ((Cone (cl.map List.length) off' x' ↔ ∀ c ∈ cl, (sub off n x c).PosSemidef)) ∧
      numVar (cl.map List.length) = (cl.flatMap (subMatIndex off n)).length := by
  intro cl
  induction cl with
  | nil => intro off' x' _ _ _; simp [Cone, numVar]
  | cons c cl ih =>
    intro off' x' hlt hnd h
    have hl := sorted_length (hlt c (by simp)) (hnd c (by simp))
    have hlen : (subMatIndex off n c).length = c.length * c.length := by
      rw [subMatIndex_length, hl]
    simp only [List.flatMap_cons, List.length_append, hlen] at h ⊢
    obtain ⟨i1, i2⟩ := @ih (off' + c.length * c.length) x' (fun c hc => hlt c (by simp [hc]))
      (fun c hc => hnd c (by simp [hc])) (fun t ht => by
        have := h (c.length * c.length + t) (by omega)
        rw [Nat.add_assoc, this, List.getD_eq_getElem?_getD,
          List.getElem?_append_right (by rw [hlen]; omega), hlen, Nat.add_sub_cancel_left,
          List.getD_eq_getElem?_getD])
    constructor
    · simp only [List.map_cons, Cone, i1, List.forall_mem_cons]
      refine and_congr_left fun _ => ?_
      have : (Matrix.of fun i j : Fin c.length => x' (off' + (i + c.length * j))) = sub off n x c := by
        ext i j
        have hb := pos_bounds (off := 0) i.2 j.2
        unfold pos at hb
        simp only [Matrix.of_apply, sub]
        rw [h _ (by omega), List.getD_eq_getElem?_getD, List.getElem?_append_left (by rw [hlen]; omega)]
        have := subMatIndex_get (off := off) (n := n) (c := c) (a := i) (b := j) (by rw [hl]; exact i.2)
          (by rw [hl]; exact j.2)
        rw [hl] at this
        rw [this]
        rfl
      rw [this]
    · simp only [List.map_cons, numVar, i2]

/-- The cone of the reduced program: the principal submatrices of the cliques. -/
theorem cone_reduced : ∀ {s : List Nat} {off : Nat} {M : Nat → Bool} {cls : List (List (List Nat))}
    {off' : Nat} {x x' : Nat → ℝ}, Masked s off M cls →
    (∀ t, t < (maskIndex s off cls).length → x' (off' + t) = x ((maskIndex s off cls).getD t 0)) →
    numVar (maskSizes cls) = (maskIndex s off cls).length ∧
    (Cone s off x → Cone (maskSizes cls) off' x') ∧
    ((∀ k, off ≤ k → k < off + numVar s → M k = false → x k = 0) → Cone (maskSizes cls) off' x' →
      Cone s off x) := by
  intro s
  induction s with
  | nil =>
    intro off M cls off' x x' h _
    cases cls with
    | nil => exact ⟨rfl, fun _ => trivial, fun _ _ => trivial⟩
    | cons _ _ => exact h.elim
  | cons n ns ih =>
    intro off M cls off' x x' h hx
    cases cls with
    | nil => exact h.elim
    | cons cl cls =>
      obtain ⟨⟨h1, h2⟩, h3⟩ := h
      simp only [maskIndex, List.length_append] at hx
      have hnd := (List.nodup_flatten.1 h1.nodup).1
      obtain ⟨c1, c2⟩ := @cone_cliques off n x cl off' x' h1.lt hnd (fun t ht => by
        rw [hx t (by omega), List.getD_eq_getElem?_getD, List.getElem?_append_left ht,
          List.getD_eq_getElem?_getD])
      obtain ⟨i1, i2, i3⟩ := @ih (off + n * n) M cls (off' + (cl.flatMap (subMatIndex off n)).length) x x' h3
        (fun t ht => by
          rw [Nat.add_assoc, hx _ (by omega), List.getD_eq_getElem?_getD,
            List.getElem?_append_right (by omega), Nat.add_sub_cancel_left,
            List.getD_eq_getElem?_getD])
      have hs : maskSizes (cl :: cls) = cl.map List.length ++ maskSizes cls := by
        simp [maskSizes]
      have hnum : ∀ (l r : List Nat), numVar (l ++ r) = numVar l + numVar r := by
        intro l r
        induction l with
        | nil => simp [numVar]
        | cons a l ih => simp only [List.cons_append, numVar, ih]; omega
      refine ⟨?_, ?_, ?_⟩
      · simp only [maskIndex, List.length_append, hs, hnum, c2, i1]
      · rintro ⟨k1, k2⟩
        rw [hs, cone_append, c2, c1]
        exact ⟨fun c hc => sub_psd (h1.lt c hc) (hnd c hc) k1, i2 k2⟩
      · intro hz hcone
        rw [hs, cone_append, c2, c1] at hcone
        simp only [numVar] at hz
        refine ⟨?_, i3 (fun k k1 k2 => hz k (by omega) (by omega)) hcone.2⟩
        have := blocks_psd h1.lt h1.nodup hcone.1
        refine (congrArg Matrix.PosSemidef ?_).mp this
        ext i j
        simp only [Matrix.of_apply]
        split_ifs with he
        · rfl
        · have hb := pos_bounds (off := off) i.2 j.2
          refine (hz _ hb.1 (by omega) ?_).symm
          rw [← Bool.not_eq_true]
          exact fun hm => he ((h2 i j i.2 j.2).1 hm)

end Verif.Matlab
