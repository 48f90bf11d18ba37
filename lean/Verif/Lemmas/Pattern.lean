import Verif.Spec.Pattern
import Verif.Lemmas.SupernodalData
import Verif.Props.CliqueOrdering

/-!
# The symbolic analysis yields a well-formed pattern
-/

namespace Verif.Sup

open Verif.Clique Spec

theorem start_succ (sizes : List Nat) {k : Nat} (h : k < sizes.length) :
    start sizes (k + 1) = start sizes k + sizes[k] := by
  unfold start
  rw [List.take_add_one, List.getElem?_eq_getElem h, List.sum_append]
  simp

theorem start_mono (sizes : List Nat) {a b : Nat} (h : a ≤ b) :
    start sizes a ≤ start sizes b := by
  unfold start
  obtain ⟨d, rfl⟩ := Nat.exists_eq_add_of_le h
  rw [List.take_add]
  simp

theorem start_le (sizes : List Nat) (a : Nat) : start sizes a ≤ sizes.sum := by
  conv_rhs => rw [← List.take_append_drop a sizes, List.sum_append]
  exact Nat.le_add_right _ _

theorem start_of_ge (sizes : List Nat) {a : Nat} (h : sizes.length ≤ a) :
    start sizes a = sizes.sum := by
  simp [start, List.take_of_length_le h]

/-- Every column belongs to a block. -/
theorem exists_block (sizes : List Nat) {v : Nat} (h : v < sizes.sum) :
    ∃ k, InBlock sizes k v := by
  have : ∃ k, v < start sizes k := ⟨sizes.length, by rw [start_of_ge _ le_rfl]; exact h⟩
  classical
  have hk := Nat.find_spec this
  have hmin := fun m => Nat.find_min this (m := m)
  generalize Nat.find this = k at hk hmin
  cases k with
  | zero => simp [start] at hk
  | succ k =>
    refine ⟨k, ?_, by have := hmin k (by omega); omega, hk⟩
    by_contra hcon
    have h1 := hmin k (by omega)
    rw [start_of_ge _ (by omega)] at h1
    omega

theorem Spec.InBlock.lt_sum {sizes : List Nat} {k v : Nat} (h : InBlock sizes k v) : v < sizes.sum :=
  lt_of_lt_of_le h.2.2 (start_le _ _)

/-- ... and to only one. -/
theorem Spec.InBlock.unique {sizes : List Nat} {k k' v : Nat} (h : InBlock sizes k v)
    (h' : InBlock sizes k' v) : k = k' := by
  rcases lt_trichotomy k k' with hlt | rfl | hlt
  · have := start_mono sizes (show k + 1 ≤ k' by omega)
    have := h.2.2; have := h'.2.1; omega
  · rfl
  · have := start_mono sizes (show k' + 1 ≤ k by omega)
    have := h'.2.2; have := h.2.1; omega

theorem Spec.InBlock.lt_of_lt {sizes : List Nat} {k k' v w : Nat} (h : InBlock sizes k v)
    (h' : InBlock sizes k' w) (hk : k < k') : v < w := by
  have := start_mono sizes (show k + 1 ≤ k' by omega)
  have := h.2.2; have := h'.2.1; omega

variable {numVars : Nat} {order : List Nat} {sn sep : Nat → List Nat}

theorem sum_sizes (order : List Nat) (sn : Nat → List Nat) :
    (order.map fun e => (sn e).length).sum = (order.flatMap sn).length := by
  simp [List.length_flatMap]

theorem start_order (k : Nat) :
    start (order.map fun e => (sn e).length) k = ((order.take k).flatMap sn).length := by
  rw [start, ← List.map_take, sum_sizes]

theorem split_at {l : List Nat} {k e : Nat} (h : l[k]? = some e) :
    l = l.take k ++ e :: l.drop (k + 1) := by
  obtain ⟨hk, rfl⟩ := List.getElem?_eq_some_iff.1 h
  simp

/-- Variables of the block at position `k` are exactly those with position in its range. -/
theorem Parts.mem_sn_iff (H : Parts numVars order sn sep) {k e : Nat} (hk : order[k]? = some e)
    {v : Nat} (hv : v ∈ order.flatMap sn) :
    v ∈ sn e ↔ InBlock (order.map fun e => (sn e).length) k (posOf order sn v) := by
  have hr := H.block_range (split_at hk)
  obtain ⟨hkl, hke⟩ := List.getElem?_eq_some_iff.1 hk
  have hs : start (order.map fun e => (sn e).length) (k + 1) =
      ((order.take k).flatMap sn).length + (sn e).length := by
    rw [start_succ _ (by simpa using hkl), start_order]
    simp [hke]
  unfold InBlock
  rw [hs, start_order]
  constructor
  · intro h
    have h1 : posOf order sn v ∈ (sn e).map (posOf order sn) := List.mem_map_of_mem h
    rw [hr, List.mem_range'_1] at h1
    exact ⟨by simpa using hkl, h1.1, h1.2⟩
  · rintro ⟨_, h1, h2⟩
    have h3 : posOf order sn v ∈ (sn e).map (posOf order sn) := by
      rw [hr, List.mem_range'_1]; omega
    obtain ⟨w, hw, hwv⟩ := List.mem_map.1 h3
    have hwf : w ∈ order.flatMap sn := H.mem_flat (List.mem_of_getElem? hk) hw
    rw [← H.posOf_inj hwf hv hwv]
    exact hw

theorem before_index {l : List Nat} (hl : l.Nodup) {a b i j : Nat} (h : Before l a b)
    (hi : l[i]? = some a) (hj : l[j]? = some b) : i < j := by
  obtain ⟨pre, suf, rfl, ha⟩ := h
  obtain ⟨m, hm, hma⟩ := List.getElem_of_mem ha
  have h1 : (pre ++ b :: suf)[m]? = some a := by
    rw [List.getElem?_append_left hm, List.getElem?_eq_getElem hm, hma]
  have h2 : (pre ++ b :: suf)[pre.length]? = some b := by simp
  have hi' := List.getElem?_eq_some_iff.1 hi
  have hj' := List.getElem?_eq_some_iff.1 hj
  have e1 : i = m := (List.Nodup.getElem_inj_iff hl (hi := hi'.1)
    (hj := (List.getElem?_eq_some_iff.1 h1).1)).1
      (by rw [hi'.2, (List.getElem?_eq_some_iff.1 h1).2])
  have e2 : j = pre.length := (List.Nodup.getElem_inj_iff hl (hi := hj'.1)
    (hj := (List.getElem?_eq_some_iff.1 h2).1)).1
      (by rw [hj'.2, (List.getElem?_eq_some_iff.1 h2).2])
  omega

/-- The result of the symbolic analysis meets the requirements of `supernodesToData`. -/
theorem parts_of_symbolic {cs : List (List Nat)} (hs : Increasing cs) {vl : Option (Nat → Bool)}
    {root : Int} {S : Symbolic} (h : pickCliqueOrder cs vl root = .ok S) {numVars : Nat}
    (hb : ∀ c ∈ cs, ∀ v ∈ c, v < numVars) :
    Parts numVars S.order S.supernodes S.separators := by
  obtain ⟨p1, p2, p3, p4⟩ := C12_supernodes_partition cs hs vl root S h
  obtain ⟨q1, q2, q3⟩ := C13_front_contains_clique cs hs vl root S h
  obtain ⟨_, r2⟩ := C14_running_intersection cs hs vl root S h
  obtain ⟨_, _, own, ht, r, rt, _, _, H⟩ := pick_inversion hs h
  have hmem : ∀ e, e ∈ S.order ↔ e < cs.length := by
    intro e; rw [H.perm.mem_iff, List.mem_range]
  have hlen : S.order.length = cs.length := by simpa using H.perm.length_eq
  have hnd : S.order.Nodup := H.perm.nodup_iff.2 List.nodup_range
  refine ⟨?_, ?_, ?_, ?_, ?_⟩
  · intro e he; rw [hlen]; exact (hmem e).1 he
  · rw [List.nodup_flatMap]
    refine ⟨fun e _ => SSorted.nodup (p1 e), ?_⟩
    refine List.Pairwise.imp ?_ hnd
    intro a b hab v hva hvb
    exact hab (p2 a b v hva hvb)
  · intro v hv
    obtain ⟨e, he, hv⟩ := List.mem_flatMap.1 hv
    obtain ⟨c, hc, hvc⟩ := (p3 v).2 ⟨e, (hmem e).1 he, hv⟩
    exact hb c hc v hvc
  · intro e he v hv
    obtain ⟨o, ho, hbef⟩ := r2 e v hv
    exact List.mem_flatMap.2 ⟨o, hbef.mem_right, ho⟩
  · intro e _
    exact SSorted.nodup (q3 e)

theorem mem_order_of_sn {cs : List (List Nat)} (hs : Increasing cs) {vl : Option (Nat → Bool)}
    {root : Int} {S : Symbolic} (h : pickCliqueOrder cs vl root = .ok S) {e v : Nat}
    (hv : v ∈ S.supernodes e) : e ∈ S.order := by
  obtain ⟨_, _, own, ht, r, rt, _, _, H⟩ := pick_inversion hs h
  rw [H.perm.mem_iff, List.mem_range]
  by_contra hcon
  have := (C12_supernodes_partition cs hs vl root S h).2.2.2 e (by omega)
  rw [this] at hv
  simp at hv

theorem pattern_of_symbolic {cs : List (List Nat)} (hs : Increasing cs) {vl : Option (Nat → Bool)}
    {root : Int} {S : Symbolic} (h : pickCliqueOrder cs vl root = .ok S) {numVars : Nat}
    (hb : ∀ c ∈ cs, ∀ v ∈ c, v < numVars) :
    Pattern (S.order.map fun e => (S.supernodes e).length)
      (S.order.map (sepP S.order S.supernodes S.separators)) := by
  have P := parts_of_symbolic hs h hb
  obtain ⟨_, _, own, ht, r, rt, _, _, H⟩ := pick_inversion hs h
  have hnd : S.order.Nodup := H.perm.nodup_iff.2 List.nodup_range
  obtain ⟨p1, p2, p3, p4⟩ := C12_supernodes_partition cs hs vl root S h
  obtain ⟨⟨par, r1⟩, r2⟩ := C14_running_intersection cs hs vl root S h
  have inv : ∀ (k : Nat) (s : List Nat), (S.order.map (sepP S.order S.supernodes S.separators))[k]? = some s →
      ∃ e, S.order[k]? = some e ∧ s = sepP S.order S.supernodes S.separators e := by
    intro k s hk
    rw [List.getElem?_map] at hk
    cases ho : S.order[k]? with
    | none => rw [ho] at hk; simp at hk
    | some e => rw [ho] at hk; simp at hk; exact ⟨e, rfl, hk.symm⟩
  refine ⟨by simp, ?_, ?_, ?_⟩
  · intro k s hk
    obtain ⟨e, he, rfl⟩ := inv k s hk
    exact P.sepP_sorted (List.mem_of_getElem? he)
  · intro k s hk i hi
    obtain ⟨e, he, rfl⟩ := inv k s hk
    have heo := List.mem_of_getElem? he
    obtain ⟨v, hv, rfl⟩ := mem_sepP.1 hi
    obtain ⟨o, ho, hbef⟩ := r2 e v hv
    have hvf := P.sepmem e heo v hv
    obtain ⟨m, hm, hmo⟩ := List.getElem_of_mem hbef.mem_right
    have hmo' : S.order[m]? = some o := by rw [List.getElem?_eq_getElem hm, hmo]
    have hkm := before_index hnd hbef he hmo'
    have hin := (P.mem_sn_iff hmo' hvf).1 ho
    refine ⟨le_trans (start_mono _ (by omega)) hin.2.1, hin.lt_sum⟩
  · intro k s hk
    obtain ⟨e, he, rfl⟩ := inv k s hk
    -- walk up the tree from e
    have key : ∀ (d : Nat) (e k : Nat), S.order[k]? = some e → S.order.length - k = d →
        ∀ cv ∈ S.separators e, ∀ rv ∈ S.separators e,
        posOf S.order S.supernodes cv ≤ posOf S.order S.supernodes rv →
        ∀ (o eo : Nat), S.order[o]? = some eo → cv ∈ S.supernodes eo →
        rv ∈ S.supernodes eo ∨ rv ∈ S.separators eo := by
      intro d
      induction d using Nat.strong_induction_on with
      | _ d ih =>
        intro e k he hd cv hcv rv hrv hle o eo ho hco
        obtain ⟨b1, c1⟩ := r1 e cv hcv
        obtain ⟨_, d1⟩ := r1 e rv hrv
        rcases c1 with c1 | c1
        · have : eo = par e := p2 _ _ cv hco c1
          rw [this]; exact d1
        · have hpm := b1.mem_right
          obtain ⟨m, hm, hmp⟩ := List.getElem_of_mem hpm
          have hmp' : S.order[m]? = some (par e) := by rw [List.getElem?_eq_getElem hm, hmp]
          have hkm := before_index hnd b1 he hmp'
          rcases d1 with d1 | d1
          · exfalso
            obtain ⟨o', ho', hbef⟩ := r2 (par e) cv c1
            have hvf := P.sepmem (par e) hpm cv c1
            obtain ⟨m', hm', hmo'⟩ := List.getElem_of_mem hbef.mem_right
            have hmo'' : S.order[m']? = some o' := by rw [List.getElem?_eq_getElem hm', hmo']
            have hlt := before_index hnd hbef hmp' hmo''
            have i1 := (P.mem_sn_iff hmo'' hvf).1 ho'
            have i2 := (P.mem_sn_iff hmp' (P.mem_flat hpm d1)).1 d1
            have := i2.lt_of_lt i1 hlt
            omega
          · exact ih (S.order.length - m) (by omega) (par e) m hmp' rfl cv c1 rv d1 hle o eo ho hco
    have heo := List.mem_of_getElem? he
    intro c hc r hr hle o hin
    obtain ⟨cv, hcv, rfl⟩ := mem_sepP.1 hc
    obtain ⟨rv, hrv, rfl⟩ := mem_sepP.1 hr
    obtain ⟨hol, _⟩ := id hin
    have hol' : o < S.order.length := by simpa using hol
    have hoo : S.order[o]? = some (S.order[o]) := List.getElem?_eq_getElem hol'
    have hcf := P.sepmem e heo cv hcv
    have hrf := P.sepmem e heo rv hrv
    have hco := (P.mem_sn_iff hoo hcf).2 hin
    rcases key _ e k he rfl cv hcv rv hrv hle o _ hoo hco with h1 | h1
    · exact .inl ((P.mem_sn_iff hoo hrf).1 h1)
    · refine .inr ⟨_, by rw [List.getElem?_map, hoo]; rfl, mem_sepP.2 ⟨rv, h1, rfl⟩⟩

end Verif.Sup
