import Verif.Model.Matlab
import Mathlib.Logic.Relation
import Mathlib.Data.List.Nodup
import Mathlib.Data.List.Range
import Mathlib.Data.Finset.Card

/-!
# Lemmas on the connected components of the MATLAB interface
-/

namespace Verif.Matlab

/-- Reachability in the graph on the nodes below `N`. -/
def Reach (N : Nat) (adj : Nat → Nat → Bool) : Nat → Nat → Prop :=
  Relation.ReflTransGen fun v w => v < N ∧ w < N ∧ adj w v = true

theorem Reach.symm {N : Nat} {adj : Nat → Nat → Bool} (hs : ∀ v w, adj v w = adj w v) {v w : Nat}
    (h : Reach N adj v w) : Reach N adj w v := by
  induction h with
  | refl => exact Relation.ReflTransGen.refl
  | tail _ hab ih => exact ih.head ⟨hab.2.1, hab.1, by rw [hs]; exact hab.2.2⟩

/-- The state of the search from `v`, where `D` was discovered before. -/
structure Searching (N : Nat) (adj : Nat → Nat → Bool) (D : Nat → Prop) (v : Nat) (d : Nat → Bool)
    (mem : List Nat) (ptr : Nat) : Prop where
  disc : ∀ w, d w = true ↔ D w ∨ w ∈ mem
  nodup : mem.Nodup
  lt : ∀ w ∈ mem, w < N
  fresh : ∀ w ∈ mem, ¬ D w
  start : v ∈ mem
  reach : ∀ w ∈ mem, Reach N adj v w
  done : ∀ k, k < ptr → ∀ u, mem[k]? = some u → ∀ w, w < N → adj w u = true → d w = true
  le : ptr ≤ mem.length

theorem length_le_of_nodup_lt {N : Nat} {l : List Nat} (h : l.Nodup) (hl : ∀ w ∈ l, w < N) :
    l.length ≤ N := by
  have h1 : l.toFinset.card = l.length := List.toFinset_card_of_nodup h
  have h2 : l.toFinset ⊆ Finset.range N := fun w hw => by
    rw [Finset.mem_range]
    exact hl w (List.mem_toFinset.1 hw)
  have := Finset.card_le_card h2
  rw [Finset.card_range] at this
  omega

theorem grow_ok {N : Nat} {adj : Nat → Nat → Bool} {D : Nat → Prop} {v : Nat} :
    ∀ (f : Nat) (d : Nat → Bool) (mem : List Nat) (ptr : Nat), Searching N adj D v d mem ptr →
      N < f + ptr → ∃ d' mem', grow N adj f d mem ptr = .ok (d', mem') ∧
        Searching N adj D v d' mem' mem'.length := by
  intro f
  induction f with
  | zero =>
    intro d mem ptr h hf
    have := length_le_of_nodup_lt h.nodup h.lt
    have := h.le
    omega
  | succ f ih =>
    intro d mem ptr h hf
    cases hp : mem[ptr]? with
    | none =>
      refine ⟨d, mem, by simp [grow, hp], ?_⟩
      have : ptr = mem.length := by
        have := h.le
        have := List.getElem?_eq_none_iff.1 hp
        omega
      rw [← this]
      exact h
    | some u =>
      have hlt : ptr < mem.length := (List.getElem?_eq_some_iff.1 hp).1
      have hu : u ∈ mem := List.mem_of_getElem? hp
      simp only [grow, hp]
      have hnew : ∀ w, w ∈ ((List.range N).filter fun w => adj w u && !d w) ↔
          w < N ∧ adj w u = true ∧ ¬ d w = true := by
        intro w
        simp [List.mem_filter]
      refine ih _ _ _ ⟨?_, ?_, ?_, ?_, ?_, ?_, ?_, ?_⟩ (by omega)
      · intro w
        rw [Bool.or_eq_true, List.contains_iff_mem, h.disc, List.mem_append, or_assoc]
      · refine List.nodup_append.2 ⟨h.nodup, List.nodup_range.filter _, fun a ha b hb hab => ?_⟩
        subst hab
        exact ((hnew a).1 hb).2.2 ((h.disc a).2 (.inr ha))
      · intro w hw
        rcases List.mem_append.1 hw with hw | hw
        · exact h.lt w hw
        · exact ((hnew w).1 hw).1
      · intro w hw
        rcases List.mem_append.1 hw with hw | hw
        · exact h.fresh w hw
        · exact fun hD => ((hnew w).1 hw).2.2 ((h.disc w).2 (.inl hD))
      · exact List.mem_append.2 (.inl h.start)
      · intro w hw
        rcases List.mem_append.1 hw with hw | hw
        · exact h.reach w hw
        · exact (h.reach u hu).tail ⟨h.lt u hu, ((hnew w).1 hw).1, ((hnew w).1 hw).2.1⟩
      · intro k hk x hx w hw hadj
        rw [Bool.or_eq_true, List.contains_iff_mem, hnew]
        by_cases hd : d w = true
        · exact .inl hd
        · right
          refine ⟨hw, ?_, hd⟩
          rcases Nat.lt_succ_iff_lt_or_eq.1 hk with hk | rfl
          · rw [List.getElem?_append_left (by omega)] at hx
            exact absurd (h.done k hk x hx w hw hadj) hd
          · rw [List.getElem?_append_left hlt, hp] at hx
            cases hx
            exact hadj
      · simp
        omega

/-- The components found so far. -/
structure Found (N : Nat) (adj : Nat → Nat → Bool) (k : Nat) (st : (Nat → Bool) × List (List Nat)) :
    Prop where
  disc : ∀ w, st.1 w = true ↔ ∃ g ∈ st.2, w ∈ g
  nodup : (st.2.flatten).Nodup
  lt : ∀ g ∈ st.2, ∀ w ∈ g, w < N
  comp : ∀ g ∈ st.2, ∀ v ∈ g, ∀ w, w ∈ g ↔ Reach N adj v w
  all : ∀ w, w < k → ∃ g ∈ st.2, w ∈ g
  ne : ∀ g ∈ st.2, g ≠ []

theorem discover_ok {N : Nat} {adj : Nat → Nat → Bool} (hs : ∀ v w, adj v w = adj w v) {k : Nat}
    (hk : k < N) {st : (Nat → Bool) × List (List Nat)} (h : Found N adj k st) :
    ∃ st', discover N adj st k = .ok st' ∧ Found N adj (k + 1) st' := by
  unfold discover
  by_cases hd : st.1 k = true
  · rw [if_pos hd]
    refine ⟨st, rfl, h.disc, h.nodup, h.lt, h.comp, fun w hw => ?_, h.ne⟩
    rcases Nat.lt_succ_iff_lt_or_eq.1 hw with hw | rfl
    · exact h.all w hw
    · exact (h.disc w).1 hd
  · rw [if_neg hd]
    have hk' : ¬ ∃ g ∈ st.2, k ∈ g := fun hg => hd ((h.disc k).2 hg)
    obtain ⟨d, mem, hr, hS⟩ := grow_ok (adj := adj) (D := fun w => ∃ g ∈ st.2, w ∈ g) (v := k) (N + 1)
      (fun w => st.1 w || w == k) [k] 0
      ⟨fun w => by
          rw [Bool.or_eq_true, h.disc]
          simp,
        by simp, by simpa using hk, by simpa using hk', by simp,
        by intro w hw; rw [List.mem_singleton.1 hw]; exact Relation.ReflTransGen.refl,
        by intro j hj; omega, by simp⟩ (by omega)
    refine ⟨(d, st.2 ++ [mem]), by rw [hr]; rfl, ?_⟩
    -- the new component is closed
    have hclosed : ∀ u ∈ mem, ∀ w, w < N → adj w u = true → w ∈ mem := by
      intro u hu w hw hadj
      obtain ⟨i, hi, rfl⟩ := List.mem_iff_getElem.1 hu
      have := hS.done i hi _ (List.getElem?_eq_getElem hi) w hw hadj
      rcases (hS.disc w).1 this with ⟨g, hg, hwg⟩ | hw'
      · exfalso
        refine hS.fresh _ hu ⟨g, hg, ?_⟩
        refine (h.comp g hg w hwg _).2 (Relation.ReflTransGen.single ⟨hw, hS.lt _ hu, ?_⟩)
        rw [hs]
        exact hadj
      · exact hw'
    have hreach : ∀ v ∈ mem, ∀ w, Reach N adj v w → w ∈ mem := by
      intro v hv w hvw
      induction hvw with
      | refl => exact hv
      | tail _ hab ih => exact hclosed _ ih _ hab.2.1 hab.2.2
    refine ⟨?_, ?_, ?_, ?_, ?_, ?_⟩
    · intro w
      simp only [hS.disc, List.mem_append, List.mem_singleton]
      constructor
      · rintro (⟨g, hg, hw⟩ | hw)
        · exact ⟨g, .inl hg, hw⟩
        · exact ⟨mem, .inr rfl, hw⟩
      · rintro ⟨g, hg | rfl, hw⟩
        · exact .inl ⟨g, hg, hw⟩
        · exact .inr hw
    · simp only [List.flatten_append, List.flatten_cons, List.flatten_nil, List.append_nil]
      refine List.nodup_append.2 ⟨h.nodup, hS.nodup, fun a ha b hb hab => ?_⟩
      subst hab
      obtain ⟨g, hg, hag⟩ := List.mem_flatten.1 ha
      exact hS.fresh a hb ⟨g, hg, hag⟩
    · intro g hg w hw
      rcases List.mem_append.1 hg with hg | hg
      · exact h.lt g hg w hw
      · rw [List.mem_singleton.1 hg] at hw
        exact hS.lt w hw
    · intro g hg v hv w
      rcases List.mem_append.1 hg with hg | hg
      · exact h.comp g hg v hv w
      · rw [List.mem_singleton.1 hg] at hv ⊢
        exact ⟨fun hw => ((hS.reach v hv).symm hs).trans (hS.reach w hw), hreach v hv w⟩
    · intro w hw
      rcases Nat.lt_succ_iff_lt_or_eq.1 hw with hw | rfl
      · obtain ⟨g, hg, hwg⟩ := h.all w hw
        exact ⟨g, List.mem_append.2 (.inl hg), hwg⟩
      · exact ⟨mem, List.mem_append.2 (.inr (by simp)), hS.start⟩
    · intro g hg
      rcases List.mem_append.1 hg with hg | hg
      · exact h.ne g hg
      · rw [List.mem_singleton.1 hg]
        exact List.ne_nil_of_mem hS.start

theorem discoverAll_ok {N : Nat} {adj : Nat → Nat → Bool} (hs : ∀ v w, adj v w = adj w v) :
    ∀ (j k : Nat), k + j = N → ∀ st, Found N adj k st →
      ∃ st', (List.range' k j).foldlM (discover N adj) st = .ok st' ∧ Found N adj N st' := by
  intro j
  induction j with
  | zero =>
    intro k hk st h
    refine ⟨st, by simp, ?_⟩
    have : k = N := by omega
    subst this
    exact h
  | succ j ih =>
    intro k hk st h
    obtain ⟨st1, h1, h2⟩ := discover_ok hs (by omega) h
    obtain ⟨st2, h3, h4⟩ := ih (k + 1) (by omega) st1 h2
    refine ⟨st2, ?_, h4⟩
    rw [List.range'_succ, List.foldlM_cons, h1]
    exact h3

/-- `conncomp` ends and returns the connected components. -/
theorem conncomp_ok (N : Nat) (B : Nat → Nat → Bool) :
    ∃ cs, conncomp N B = .ok cs ∧ cs.flatten.Nodup ∧ (∀ g ∈ cs, ∀ w ∈ g, w < N) ∧
      (∀ w, w < N → ∃ g ∈ cs, w ∈ g) ∧ (∀ g ∈ cs, g ≠ []) ∧
      ∀ g ∈ cs, ∀ v ∈ g, ∀ w, w ∈ g ↔
        Reach N (fun i j => (i != j) && (B i j || B j i)) v w := by
  obtain ⟨st, h1, h2⟩ := discoverAll_ok (N := N)
    (adj := fun i j => (i != j) && (B i j || B j i))
    (fun v w => by rw [bne_comm, Bool.or_comm]) N 0 (by omega) (fun _ => false, [])
    ⟨by simp, by simp, by simp, by simp, by omega, by simp⟩
  refine ⟨st.2.mergeSort fun a b => a.length ≤ b.length, ?_, ?_, ?_, ?_, ?_, ?_⟩
  · unfold conncomp
    rw [List.range_eq_range']
    simp only [h1, Outcome.bind_ok]
  · exact ((List.mergeSort_perm st.2 _).flatten).nodup_iff.2 h2.nodup
  · intro g hg
    exact h2.lt g (List.mem_mergeSort.1 hg)
  · intro w hw
    obtain ⟨g, hg, hw⟩ := h2.all w hw
    exact ⟨g, List.mem_mergeSort.2 hg, hw⟩
  · intro g hg
    exact h2.ne g (List.mem_mergeSort.1 hg)
  · intro g hg
    exact h2.comp g (List.mem_mergeSort.1 hg)

end Verif.Matlab
