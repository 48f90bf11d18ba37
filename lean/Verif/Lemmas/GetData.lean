import Verif.Lemmas.Pattern
import Verif.Lemmas.ConstraintManager

/-!
# Closed form of `getData` and `kktInit`
-/

namespace Verif.Sup

open Verif.Clique Spec

theorem increasing_map_sort {cs : List (List Nat)} (h : ∀ c ∈ cs, c.Nodup) :
    Increasing (cs.map sortNat) := by
  intro c hc
  obtain ⟨d, hd, rfl⟩ := List.mem_map.1 hc
  exact sortNat_sorted (h d hd)

/-- Everything known about the result of `getData`. -/
structure DataOK (cs : List (List Nat)) (d : MatrixData) (sn sep : Nat → List Nat)
    (numVars : Nat) : Prop where
  perm : d.cliqueOrder.Perm (List.range cs.length)
  parts : Parts numVars d.cliqueOrder sn sep
  cliques : d.cliques = d.cliqueOrder.map fun e =>
    (sn e).map (posOf d.cliqueOrder sn) ++ sepP d.cliqueOrder sn sep e
  snLabels : d.snLabels = d.cliqueOrder.map sn
  sepLabels : d.sepLabels = d.cliqueOrder.map (sepO d.cliqueOrder sn sep)
  sizes : d.supernodeSize = d.cliqueOrder.map fun e => (sn e).length
  N : d.N = (d.cliqueOrder.flatMap sn).length
  plen : d.permutation.length = numVars
  qlen : d.permutationInverse.length = numVars
  p : ∀ v, v ∈ d.cliqueOrder.flatMap sn → d.permutation[v]? = some (posOf d.cliqueOrder sn v)
  q : ∀ (i v : Nat), (d.cliqueOrder.flatMap sn)[i]? = some v → d.permutationInverse[i]? = some v
  pattern : Pattern d.supernodeSize (d.cliqueOrder.map (sepP d.cliqueOrder sn sep))
  occurs : ∀ v, (∃ c ∈ cs, v ∈ c) ↔ v ∈ d.cliqueOrder.flatMap sn
  front : ∀ (i : Nat) (c : List Nat), cs[i]? = some c → ∀ v ∈ c, v ∈ sn i ∨ v ∈ sep i
  disj : ∀ e v, v ∈ sn e → v ∉ sep e
  sn_nodup : ∀ e, (sn e).Nodup

theorem getData_spec {cs : List (List Nat)} (hnd : ∀ c ∈ cs, c.Nodup) {vl : Option (Nat → Bool)}
    {root : Int} {d : MatrixData} (h : getData cs vl root = .ok d) :
    ∃ sn sep numVars, DataOK cs d sn sep numVars := by
  have hs := increasing_map_sort hnd
  unfold getData at h
  cases hp : pickCliqueOrder (cs.map sortNat) vl root with
  | throws => rw [hp] at h; simp [Outcome.bind] at h
  | ub => rw [hp] at h; simp [Outcome.bind] at h
  | diverges => rw [hp] at h; simp [Outcome.bind] at h
  | ok S =>
    rw [hp] at h
    simp only [Outcome.bind] at h
    have hne : cliqueAt cs 0 ≠ [] := by
      intro hcon
      have : getMax cs = .throws := by
        cases cs with
        | nil => rfl
        | cons c cs =>
          simp [cliqueAt] at hcon
          subst hcon; rfl
      rw [this] at h
      simp at h
    obtain ⟨m, hm, hmax, _⟩ := getMax_spec cs hne
    rw [hm] at h
    simp only at h
    have hb : ∀ c ∈ cs.map sortNat, ∀ v ∈ c, v < m + 1 := by
      intro c hc v hv
      obtain ⟨c', hc', rfl⟩ := List.mem_map.1 hc
      obtain ⟨i, hi, rfl⟩ := List.getElem_of_mem hc'
      rw [mem_sortNat] at hv
      have := hmax i hi v (by
        rw [(cliqueAt_of_getElem? (List.getElem?_eq_getElem hi)).1]; exact hv)
      omega
    have P := parts_of_symbolic hs hp hb
    obtain ⟨p, q, e, l1, l2, g1, g2⟩ := supernodesToData_spec P
    rw [e] at h
    simp only [Outcome.ok.injEq] at h
    subst h
    obtain ⟨p1, p2, p3, p4⟩ := C12_supernodes_partition _ hs vl root S hp
    obtain ⟨q1, q2, q3⟩ := C13_front_contains_clique _ hs vl root S hp
    obtain ⟨_, _, own, ht, r, rt, _, _, H⟩ := pick_inversion hs hp
    refine ⟨S.supernodes, S.separators, m + 1, ?_⟩
    have hperm : S.order.Perm (List.range cs.length) := by simpa using H.perm
    refine { perm := hperm, parts := P, cliques := rfl, snLabels := rfl, sepLabels := rfl,
             sizes := rfl, N := rfl, plen := l1, qlen := l2, p := g1, q := g2,
             pattern := pattern_of_symbolic hs hp hb, occurs := ?_, front := ?_,
             disj := q2, sn_nodup := fun e => SSorted.nodup (p1 e) }
    · intro v
      rw [List.mem_flatMap]
      constructor
      · rintro ⟨c, hc, hv⟩
        obtain ⟨e, he, hv⟩ := (p3 v).1 ⟨sortNat c, List.mem_map_of_mem hc, by
          rw [mem_sortNat]; exact hv⟩
        exact ⟨e, by rw [hperm.mem_iff, List.mem_range]; simpa using he, hv⟩
      · rintro ⟨e, he, hv⟩
        rw [hperm.mem_iff, List.mem_range] at he
        obtain ⟨c, hc, hv⟩ := (p3 v).2 ⟨e, by simpa using he, hv⟩
        obtain ⟨c', hc', rfl⟩ := List.mem_map.1 hc
        exact ⟨c', hc', (mem_sortNat _ _).1 hv⟩
    · intro i c hc v hv
      exact q1 i (sortNat c) (by simp [List.getElem?_map, hc]) v ((mem_sortNat _ _).2 hv)

theorem getData_ok {cs : List (List Nat)} (hnd : ∀ c ∈ cs, c.Nodup) (vl : Option (Nat → Bool))
    {root : Int} (hr : root < cs.length) (h0 : cliqueAt cs 0 ≠ []) :
    ∃ d, getData cs vl root = .ok d := by
  have hs := increasing_map_sort hnd
  have h0' : cliqueAt (cs.map sortNat) 0 ≠ [] := by
    obtain ⟨v, hv⟩ := List.exists_mem_of_ne_nil _ h0
    cases cs with
    | nil => simp [cliqueAt] at h0
    | cons c cs =>
      simp only [cliqueAt, List.map_cons, List.getElem?_cons_zero, Option.getD_some] at hv ⊢
      exact List.ne_nil_of_mem ((mem_sortNat c v).2 hv)
  obtain ⟨S, own, ht, r, rt, hp, _⟩ := pickCliqueOrder_spec hs vl root (by simpa using hr) h0'
  obtain ⟨m, hm, hmax, _⟩ := getMax_spec cs h0
  have hb : ∀ c ∈ cs.map sortNat, ∀ v ∈ c, v < m + 1 := by
    intro c hc v hv
    obtain ⟨c', hc', rfl⟩ := List.mem_map.1 hc
    obtain ⟨i, hi, rfl⟩ := List.getElem_of_mem hc'
    rw [mem_sortNat] at hv
    have := hmax i hi v (by
      rw [(cliqueAt_of_getElem? (List.getElem?_eq_getElem hi)).1]; exact hv)
    omega
  obtain ⟨p, q, e, _⟩ := supernodesToData_spec (parts_of_symbolic hs hp hb)
  exact ⟨_, by simp only [getData, hp, hm, Outcome.bind]; exact e⟩

theorem getData_throws {cs : List (List Nat)} (vl : Option (Nat → Bool)) (root : Int)
    (h0 : cliqueAt cs 0 = []) (hnd : ∀ c ∈ cs, c.Nodup) : getData cs vl root = .throws := by
  have hs := increasing_map_sort hnd
  have := (C11_elimination_order (cs.map sortNat) hs vl root).2 (by
    rintro ⟨_, c, hc, hne⟩
    cases cs with
    | nil => simp at hc
    | cons c' cs =>
      simp [cliqueAt] at h0
      subst h0
      simp [sortNat] at hc
      exact hne hc)
  simp [getData, this, Outcome.bind]

theorem argMaxLength_spec (ls : List (List Nat)) (h : ls ≠ []) :
    (argMaxLength ls).1 < ls.length ∧
    (argMaxLength ls).2 = (cliqueAt ls (argMaxLength ls).1).length ∧
    (∀ i, i < ls.length → (cliqueAt ls i).length ≤ (argMaxLength ls).2) := by
  have key : ∀ (l : List Nat) (acc : Nat × Nat), (∀ i ∈ l, i < ls.length) → acc.1 < ls.length →
      acc.2 = (cliqueAt ls acc.1).length →
      let r := l.foldl (fun acc i =>
        if acc.2 < (cliqueAt ls i).length then (i, (cliqueAt ls i).length) else acc) acc
      r.1 < ls.length ∧ r.2 = (cliqueAt ls r.1).length ∧ acc.2 ≤ r.2 ∧
        ∀ i ∈ l, (cliqueAt ls i).length ≤ r.2 := by
    intro l
    induction l with
    | nil => intro acc _ h1 h2; exact ⟨h1, h2, le_rfl, by simp⟩
    | cons x l ih =>
      intro acc hl h1 h2
      simp only [List.foldl_cons]
      by_cases hx : acc.2 < (cliqueAt ls x).length
      · rw [if_pos hx]
        obtain ⟨i1, i2, i3, i4⟩ := ih (x, (cliqueAt ls x).length)
          (fun i hi => hl i (List.mem_cons_of_mem _ hi)) (hl x (by simp)) rfl
        refine ⟨i1, i2, by simp only at i3; omega, ?_⟩
        intro i hi
        rcases List.mem_cons.1 hi with rfl | hi
        · exact i3
        · exact i4 i hi
      · rw [if_neg hx]
        obtain ⟨i1, i2, i3, i4⟩ := ih acc (fun i hi => hl i (List.mem_cons_of_mem _ hi)) h1 h2
        refine ⟨i1, i2, i3, ?_⟩
        intro i hi
        rcases List.mem_cons.1 hi with rfl | hi
        · omega
        · exact i4 i hi
  have hl : 0 < ls.length := List.length_pos_iff.2 h
  obtain ⟨i1, i2, _, i4⟩ := key (List.range ls.length) (0, (cliqueAt ls 0).length)
    (by simp) hl rfl
  exact ⟨i1, i2, fun i hi => i4 i (List.mem_range.2 hi)⟩

theorem getRootNode_ok {vars duals : List (List Nat)} (hl : duals.length = vars.length)
    (h : vars ≠ []) : ∃ r, getRootNode vars duals = .ok r ∧ r < vars.length := by
  have hd : duals ≠ [] := by
    rintro rfl
    exact h (List.length_eq_zero_iff.1 hl.symm)
  unfold getRootNode
  rw [if_neg hd]
  by_cases h1 : 0 < (argMaxLength duals).2
  · exact ⟨_, by rw [if_pos h1], by rw [← hl]; exact (argMaxLength_spec duals hd).1⟩
  · exact ⟨_, by rw [if_neg h1, if_neg h], (argMaxLength_spec vars h).1⟩

end Verif.Sup
