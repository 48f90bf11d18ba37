import Verif.Model.SupernodalData
import Verif.Lemmas.FillIn

/-!
# Lemmas about `supernodesToData`
-/

namespace Verif.Sup

open Verif.Clique

theorem relabel_ok (labels : List Nat) (xs : List Nat) (h : ∀ x ∈ xs, x < labels.length) :
    relabel labels xs = .ok (xs.map fun x => labels.getD x 0) := by
  induction xs with
  | nil => rfl
  | cons x xs ih =>
    have hx : x < labels.length := h x (by simp)
    simp only [relabel, List.getElem?_eq_getElem hx]
    rw [ih (fun y hy => h y (List.mem_cons_of_mem _ hy))]
    simp [Outcome.bind, List.getD_eq_getElem?_getD, List.getElem?_eq_getElem hx]

theorem writePerm_spec (vs : List Nat) : ∀ (i : Nat) (p q : List Nat), vs.Nodup →
    (∀ v ∈ vs, v < p.length) → i + vs.length ≤ q.length →
    ∃ p' q', writePerm vs i p q = .ok (p', q') ∧ p'.length = p.length ∧ q'.length = q.length ∧
      (∀ v, p'[v]? = if v ∈ vs then some (i + vs.idxOf v) else p[v]?) ∧
      (∀ j, q'[j]? = if i ≤ j ∧ j < i + vs.length then vs[j - i]? else q[j]?) := by
  induction vs with
  | nil =>
    intro i p q _ _ _
    refine ⟨p, q, rfl, rfl, rfl, by simp, ?_⟩
    intro j
    rw [if_neg (by simp)]
  | cons v vs ih =>
    intro i p q hn hp hq
    simp only [List.length_cons] at hq
    have hv : v < p.length := hp v (by simp)
    obtain ⟨hn1, hn2⟩ := List.nodup_cons.1 hn
    obtain ⟨p', q', e, l1, l2, h1, h2⟩ := ih (i + 1) (p.set v i) (q.set i v) hn2
      (by intro x hx; simpa using hp x (List.mem_cons_of_mem _ hx)) (by simp; omega)
    refine ⟨p', q', ?_, by simpa using l1, by simpa using l2, ?_, ?_⟩
    · simp only [writePerm]
      rw [if_pos ⟨by omega, hv⟩, e]
    · intro x
      rw [h1]
      by_cases hx : x = v
      · subst hx
        rw [if_neg hn1]
        simp [hv]
      · by_cases hx' : x ∈ vs
        · rw [if_pos hx', if_pos (List.mem_cons_of_mem _ hx'),
            List.idxOf_cons_ne _ (fun e => hx e.symm)]
          congr 1; omega
        · rw [if_neg hx', if_neg (by simp [hx, hx'])]
          rw [List.getElem?_set_ne (fun e => hx e.symm)]
    · intro j
      rw [h2]
      simp only [List.length_cons]
      by_cases hj : j = i
      · subst hj
        rw [if_neg (by omega), if_pos (by omega)]
        rw [List.getElem?_set_self (by omega)]
        simp
      · by_cases hj' : i + 1 ≤ j ∧ j < i + 1 + vs.length
        · rw [if_pos hj', if_pos (by omega)]
          obtain ⟨d, rfl⟩ : ∃ d, j = i + 1 + d := ⟨j - (i + 1), by omega⟩
          rw [show i + 1 + d - (i + 1) = d by omega, show i + 1 + d - i = d + 1 by omega]
          simp
        · rw [if_neg hj', if_neg (by omega)]
          rw [List.getElem?_set_ne (fun e => hj e.symm)]

/-- The elimination position of a variable. -/
def posOf (order : List Nat) (sn : Nat → List Nat) (v : Nat) : Nat := (order.flatMap sn).idxOf v

/-- Separator in permuted labels. -/
def sepP (order : List Nat) (sn sep : Nat → List Nat) (e : Nat) : List Nat :=
  sortNat ((sep e).map (posOf order sn))

/-- Separator in original labels, by permuted position. -/
def sepO (order : List Nat) (sn sep : Nat → List Nat) (e : Nat) : List Nat :=
  (sepP order sn sep e).map fun i => (order.flatMap sn).getD i 0

/-- What `supernodesToData` needs: the supernodes partition a set of unknowns, and the separators
are duplicate-free sets of such unknowns. -/
structure Parts (numVars : Nat) (order : List Nat) (sn sep : Nat → List Nat) : Prop where
  lt : ∀ e ∈ order, e < order.length
  nodup : (order.flatMap sn).Nodup
  bound : ∀ v ∈ order.flatMap sn, v < numVars
  sepmem : ∀ e ∈ order, ∀ v ∈ sep e, v ∈ order.flatMap sn
  sepnodup : ∀ e ∈ order, (sep e).Nodup

variable {numVars : Nat} {order : List Nat} {sn sep : Nat → List Nat}

theorem Parts.posOf_lt (_ : Parts numVars order sn sep) {v : Nat} (hv : v ∈ order.flatMap sn) :
    posOf order sn v < (order.flatMap sn).length := List.idxOf_lt_length_of_mem hv

theorem getElem?_posOf {v : Nat} (hv : v ∈ order.flatMap sn) :
    (order.flatMap sn)[posOf order sn v]? = some v := by
  unfold posOf
  rw [List.getElem?_eq_getElem (List.idxOf_lt_length_of_mem hv)]
  simp

theorem Parts.posOf_getElem (H : Parts numVars order sn sep) {i v : Nat}
    (h : (order.flatMap sn)[i]? = some v) : posOf order sn v = i := by
  obtain ⟨hi, rfl⟩ := List.getElem?_eq_some_iff.1 h
  exact List.Nodup.idxOf_getElem H.nodup i hi

theorem Parts.posOf_inj (_ : Parts numVars order sn sep) {v w : Nat} (hv : v ∈ order.flatMap sn)
    (hw : w ∈ order.flatMap sn) (h : posOf order sn v = posOf order sn w) : v = w := by
  have h1 := getElem?_posOf hv
  rw [h, getElem?_posOf hw] at h1
  simpa using h1.symm

theorem Parts.length_le (H : Parts numVars order sn sep) :
    (order.flatMap sn).length ≤ numVars := by
  have : (order.flatMap sn).Subperm (List.range numVars) :=
    H.nodup.subperm (fun v hv => List.mem_range.2 (H.bound v hv))
  simpa using this.length_le

theorem Parts.mem_flat (_ : Parts numVars order sn sep) {e v : Nat} (he : e ∈ order) (hv : v ∈ sn e) :
    v ∈ order.flatMap sn := List.mem_flatMap.2 ⟨e, he, hv⟩

theorem Parts.sepP_nodup (H : Parts numVars order sn sep) {e : Nat} (he : e ∈ order) :
    ((sep e).map (posOf order sn)).Nodup :=
  List.Nodup.map_on (fun _ hx _ hy h => H.posOf_inj (H.sepmem e he _ hx) (H.sepmem e he _ hy) h)
    (H.sepnodup e he)

theorem Parts.sepP_sorted (H : Parts numVars order sn sep) {e : Nat} (he : e ∈ order) :
    SSorted (sepP order sn sep e) := sortNat_sorted (H.sepP_nodup he)

theorem mem_sepP {e i : Nat} : i ∈ sepP order sn sep e ↔ ∃ v ∈ sep e, posOf order sn v = i := by
  simp [sepP, mem_sortNat]

theorem Parts.sepO_map (H : Parts numVars order sn sep) {e : Nat} (he : e ∈ order) :
    (sepO order sn sep e).map (posOf order sn) = sepP order sn sep e := by
  unfold sepO
  rw [List.map_map]
  conv_rhs => rw [← List.map_id (sepP order sn sep e)]
  apply List.map_congr_left
  intro i hi
  obtain ⟨v, hv, rfl⟩ := mem_sepP.1 hi
  simp [List.getD_eq_getElem?_getD, getElem?_posOf (H.sepmem e he v hv)]

theorem Parts.sepO_perm (H : Parts numVars order sn sep) {e : Nat} (he : e ∈ order) :
    (sepO order sn sep e).Perm (sep e) := by
  unfold sepO
  refine ((sortNat_perm _).map _).trans ?_
  rw [List.map_map]
  have : List.map ((fun i => (order.flatMap sn).getD i 0) ∘ posOf order sn) (sep e) = sep e := by
    conv_rhs => rw [← List.map_id (sep e)]
    apply List.map_congr_left
    intro v hv
    simp [List.getD_eq_getElem?_getD, getElem?_posOf (H.sepmem e he v hv)]
  rw [this]

theorem relabelBlocks_ok (H : Parts numVars order sn sep) (p q : List Nat)
    (hp : p.length = numVars) (hq : q.length = numVars)
    (h1 : ∀ v, v ∈ order.flatMap sn → p[v]? = some (posOf order sn v))
    (h2 : ∀ (i v : Nat), (order.flatMap sn)[i]? = some v → q[i]? = some v) :
    ∀ es : List Nat, (∀ e ∈ es, e ∈ order) →
    relabelBlocks p q sn sep es = .ok (es.map fun e =>
      ((sn e).map (posOf order sn) ++ sepP order sn sep e, sepO order sn sep e)) := by
  intro es
  induction es with
  | nil => intro _; rfl
  | cons e es ih =>
    intro hes
    have he : e ∈ order := hes e (by simp)
    have hlt : ∀ v ∈ order.flatMap sn, v < p.length := fun v hv => by rw [hp]; exact H.bound v hv
    have hg : ∀ v ∈ order.flatMap sn, p.getD v 0 = posOf order sn v := by
      intro v hv; simp [List.getD_eq_getElem?_getD, h1 v hv]
    have e1 : relabel p (sep e) = .ok ((sep e).map (posOf order sn)) := by
      rw [relabel_ok p _ (fun x hx => hlt x (H.sepmem e he x hx))]
      congr 1
      exact List.map_congr_left (fun v hv => hg v (H.sepmem e he v hv))
    have e2 : relabel q (sepP order sn sep e) = .ok (sepO order sn sep e) := by
      rw [relabel_ok]
      · unfold sepO
        congr 1
        apply List.map_congr_left
        intro i hi
        obtain ⟨v, hv, rfl⟩ := mem_sepP.1 hi
        have := getElem?_posOf (H.sepmem e he v hv)
        simp [List.getD_eq_getElem?_getD, this, h2 _ _ this]
      · intro i hi
        obtain ⟨v, hv, rfl⟩ := mem_sepP.1 hi
        rw [hq]
        exact lt_of_lt_of_le (H.posOf_lt (H.sepmem e he v hv)) H.length_le
    have e3 : relabel p (sn e ++ sepO order sn sep e) =
        .ok ((sn e).map (posOf order sn) ++ sepP order sn sep e) := by
      have hmem : ∀ v ∈ sn e ++ sepO order sn sep e, v ∈ order.flatMap sn := by
        intro v hv
        rcases List.mem_append.1 hv with hv | hv
        · exact H.mem_flat he hv
        · exact H.sepmem e he v ((H.sepO_perm he).mem_iff.1 hv)
      rw [relabel_ok p _ (fun x hx => hlt x (hmem x hx))]
      congr 1
      rw [← H.sepO_map he, ← List.map_append]
      exact List.map_congr_left (fun v hv => hg v (hmem v hv))
    simp only [relabelBlocks, relabelBlock, e1, Outcome.bind]
    rw [show sortNat ((sep e).map (posOf order sn)) = sepP order sn sep e from rfl, e2]
    simp only [e3]
    rw [ih (fun x hx => hes x (List.mem_cons_of_mem _ hx))]
    simp

/-- Closed form of the result. -/
theorem supernodesToData_spec (H : Parts numVars order sn sep) :
    ∃ p q, supernodesToData numVars order sn sep = .ok
      { cliques := order.map fun e => (sn e).map (posOf order sn) ++ sepP order sn sep e
        snLabels := order.map sn
        sepLabels := order.map (sepO order sn sep)
        supernodeSize := order.map fun e => (sn e).length
        permutation := p
        permutationInverse := q
        cliqueOrder := order
        N := (order.flatMap sn).length } ∧
      p.length = numVars ∧ q.length = numVars ∧
      (∀ v, v ∈ order.flatMap sn → p[v]? = some (posOf order sn v)) ∧
      (∀ (i v : Nat), (order.flatMap sn)[i]? = some v → q[i]? = some v) := by
  obtain ⟨p, q, e, l1, l2, h1, h2⟩ := writePerm_spec (order.flatMap sn) 0
    (List.replicate numVars 0) (List.replicate numVars 0) H.nodup
    (by simpa using fun v x hx hv => H.bound v (List.mem_flatMap.2 ⟨x, hx, hv⟩))
    (by simpa using H.length_le)
  simp only [List.length_replicate] at l1 l2
  have g1 : ∀ v, v ∈ order.flatMap sn → p[v]? = some (posOf order sn v) := by
    intro v hv; rw [h1, if_pos hv]; simp [posOf]
  have g2 : ∀ (i v : Nat), (order.flatMap sn)[i]? = some v → q[i]? = some v := by
    intro i v hv
    have := (List.getElem?_eq_some_iff.1 hv).1
    rw [h2, if_pos (by omega)]; simpa using hv
  refine ⟨p, q, ?_, l1, l2, g1, g2⟩
  unfold supernodesToData
  rw [if_pos (by simpa using H.lt), e]
  simp only [Outcome.bind]
  rw [relabelBlocks_ok H p q l1 l2 g1 g2 order (fun _ h => h)]
  simp [List.length_flatMap, Function.comp_def]

/-- The block at a given position occupies a contiguous range of permuted labels. -/
theorem Parts.block_range (H : Parts numVars order sn sep) {pre post : List Nat} {e : Nat}
    (ho : order = pre ++ e :: post) :
    (sn e).map (posOf order sn) = List.range' (pre.flatMap sn).length (sn e).length := by
  apply List.ext_getElem?
  intro i
  by_cases hi : i < (sn e).length
  · have hf : (order.flatMap sn)[(pre.flatMap sn).length + i]? = some ((sn e)[i]) := by
      rw [ho, List.flatMap_append, List.getElem?_append_right (by omega)]
      rw [List.flatMap_cons, List.getElem?_append_left (by omega)]
      simp [hi]
    rw [List.getElem?_map, List.getElem?_eq_getElem hi]
    simp [H.posOf_getElem hf, hi]
  · simp [hi]

end Verif.Sup
