import Verif.Model.KktFrom
import Verif.Lemmas.GetData

/-!
# Lemmas about the second constructor of the supernodal solver
-/

namespace Verif.Sup

open Verif.Clique

variable {numVars : Nat} {order : List Nat} {sn sep : Nat → List Nat}

/-- The data of `getData` are those of `supernodesToData` for some supernodes and separators. -/
theorem getData_from {cs : List (List Nat)} (hnd : ∀ c ∈ cs, c.Nodup) {vl : Option (Nat → Bool)}
    {root : Int} {d : MatrixData} (h : getData cs vl root = .ok d) :
    ∃ sn sep numVars, Parts numVars d.cliqueOrder sn sep ∧
      supernodesToData numVars d.cliqueOrder sn sep = .ok d := by
  have hs := increasing_map_sort hnd
  unfold getData at h
  cases hp : pickCliqueOrder (cs.map sortNat) vl root with
  | throws => rw [hp] at h; simp [Outcome.bind] at h
  | ub => rw [hp] at h; simp [Outcome.bind] at h
  | diverges => rw [hp] at h; simp [Outcome.bind] at h
  | ok S =>
    rw [hp] at h
    simp only [Outcome.bind] at h
    have hne : cliqueAt cs 0 ≠ [] := by
      intro hcon
      have : getMax cs = .throws := by
        cases cs with
        | nil => rfl
        | cons c cs =>
          simp [cliqueAt] at hcon
          subst hcon; rfl
      rw [this] at h
      simp at h
    obtain ⟨m, hm, hmax, _⟩ := getMax_spec cs hne
    rw [hm] at h
    simp only at h
    have hb : ∀ c ∈ cs.map sortNat, ∀ v ∈ c, v < m + 1 := by
      intro c hc v hv
      obtain ⟨c', hc', rfl⟩ := List.mem_map.1 hc
      obtain ⟨i, hi, rfl⟩ := List.getElem_of_mem hc'
      rw [mem_sortNat] at hv
      have := hmax i hi v (by
        rw [(cliqueAt_of_getElem? (List.getElem?_eq_getElem hi)).1]; exact hv)
      omega
    have P := parts_of_symbolic hs hp hb
    obtain ⟨p, q, e, -⟩ := supernodesToData_spec P
    have ho : d.cliqueOrder = S.order := by
      rw [e] at h
      simp only [Outcome.ok.injEq] at h
      rw [← h]
    rw [ho]
    exact ⟨_, _, _, P, h⟩

/-- Reading a vector by clique undoes listing it in the elimination order. -/
theorem byClique_map (f : Nat → List Nat) {e : Nat} (he : e ∈ order) :
    byClique order (order.map f) e = f e := by
  have hlt := List.idxOf_lt_length_of_mem he
  unfold byClique
  rw [List.getD_eq_getElem?_getD, List.getElem?_map, List.getElem?_eq_getElem hlt]
  simp

theorem relabelBlocks_congr (p q : List Nat) {sn' sep' : Nat → List Nat} (es : List Nat)
    (h1 : ∀ e ∈ es, sn' e = sn e) (h2 : ∀ e ∈ es, sep' e = sep e) :
    relabelBlocks p q sn' sep' es = relabelBlocks p q sn sep es := by
  induction es with
  | nil => rfl
  | cons e es ih =>
    simp only [relabelBlocks]
    rw [h1 e (by simp), h2 e (by simp),
      ih (fun x hx => h1 x (List.mem_cons_of_mem _ hx)) (fun x hx => h2 x (List.mem_cons_of_mem _ hx))]

/-- Only the entries of the order matter. -/
theorem supernodesToData_congr {sn' sep' : Nat → List Nat} (h1 : ∀ e ∈ order, sn' e = sn e)
    (h2 : ∀ e ∈ order, sep' e = sep e) :
    supernodesToData numVars order sn' sep' = supernodesToData numVars order sn sep := by
  have e1 : order.flatMap sn' = order.flatMap sn := by
    simp only [List.flatMap]
    rw [List.map_congr_left h1]
  have e2 : order.map sn' = order.map sn := List.map_congr_left h1
  have e3 : (order.map fun e => (sn' e).length) = order.map fun e => (sn e).length :=
    List.map_congr_left fun e he => by rw [h1 e he]
  unfold supernodesToData
  rw [e1, e2, e3]
  have : ∀ pq : List Nat × List Nat, relabelBlocks pq.1 pq.2 sn' sep' order =
      relabelBlocks pq.1 pq.2 sn sep order := fun pq => relabelBlocks_congr _ _ _ h1 h2
  simp only [this]

/-- Separators that are already sorted by position give the same data. -/
theorem supernodesToData_sorted (H : Parts numVars order sn sep) :
    supernodesToData numVars order sn (sepO order sn sep) =
      supernodesToData numVars order sn sep := by
  have H' : Parts numVars order sn (sepO order sn sep) :=
    { lt := H.lt
      nodup := H.nodup
      bound := H.bound
      sepmem := fun e he v hv => H.sepmem e he v ((H.sepO_perm he).mem_iff.1 hv)
      sepnodup := fun e he => (H.sepO_perm he).nodup_iff.2 (H.sepnodup e he) }
  obtain ⟨p, q, e, l1, l2, h1, h2⟩ := writePerm_spec (order.flatMap sn) 0
    (List.replicate numVars 0) (List.replicate numVars 0) H.nodup
    (by simpa using fun v x hx hv => H.bound v (List.mem_flatMap.2 ⟨x, hx, hv⟩))
    (by simpa using H.length_le)
  simp only [List.length_replicate] at l1 l2
  have g1 : ∀ v, v ∈ order.flatMap sn → p[v]? = some (posOf order sn v) := by
    intro v hv; rw [h1, if_pos hv]; simp [posOf]
  have g2 : ∀ (i v : Nat), (order.flatMap sn)[i]? = some v → q[i]? = some v := by
    intro i v hv
    have := (List.getElem?_eq_some_iff.1 hv).1
    rw [h2, if_pos (by omega)]; simpa using hv
  have hP : ∀ e ∈ order, sepP order sn (sepO order sn sep) e = sepP order sn sep e := by
    intro e he
    conv_lhs => unfold sepP
    rw [H.sepO_map he]
    exact sortNat_of_sorted (H.sepP_sorted he)
  have hO : ∀ e ∈ order, sepO order sn (sepO order sn sep) e = sepO order sn sep e := by
    intro e he
    change (sepP order sn (sepO order sn sep) e).map _ = (sepP order sn sep e).map _
    rw [hP e he]
  have hB : relabelBlocks p q sn (sepO order sn sep) order = relabelBlocks p q sn sep order := by
    rw [relabelBlocks_ok H' p q l1 l2 g1 g2 order (fun _ h => h),
      relabelBlocks_ok H p q l1 l2 g1 g2 order (fun _ h => h)]
    congr 1
    exact List.map_congr_left fun e he => by rw [hP e he, hO e he]
  unfold supernodesToData
  rw [e]
  simp only [Outcome.bind, hB]

end Verif.Sup
