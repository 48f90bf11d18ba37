import Verif.Lemmas.PathInTree
import Verif.Lemmas.SortedSets
import Mathlib.Data.List.Perm.Subperm
import Mathlib.Data.List.Perm.Lattice
import Mathlib.Data.List.Range
import Mathlib.Data.Finset.Max
import Mathlib.Data.Finset.Range
import Mathlib.Tactic.SplitIfs

namespace Verif.Clique

open Spec

/-- Cliques are handed over sorted and without duplicates. -/
def SortedCliques (cs : List (List Nat)) : Prop := ∀ c ∈ cs, SSorted c

theorem sorted_cliqueAt {cs : List (List Nat)} (h : SortedCliques cs) (i : Nat) :
    SSorted (cliqueAt cs i) := by
  unfold cliqueAt
  cases hc : cs[i]? with
  | none => simp
  | some c => exact h c (List.mem_of_getElem? hc)

theorem length_le_getWeight (cs : List (List Nat)) (vl : Option (Nat → Bool)) (a i : Nat) :
    (setInter (cliqueAt cs a) (cliqueAt cs i)).length ≤ getWeight cs vl a i := by
  unfold getWeight
  cases vl <;> simp; omega

/-- Invariant of the fold of `argmax`. -/
theorem argmax_fold (cs : List (List Nat)) (vl : Option (Nat → Bool)) (vis : Nat → Bool) (a : Nat) :
    ∀ (l : List Nat) (st : Nat × List Nat), l.Nodup → (∀ e ∈ st.2, e ∉ l) → st.2.Nodup →
      (∀ e ∈ st.2, e ≠ a ∧ vis e = false ∧ getWeight cs vl a e = st.1) → 1 ≤ st.1 →
      let st' := l.foldl (argmaxStep cs vl vis a) st
      st'.2.Nodup ∧ st.1 ≤ st'.1 ∧
      (∀ e ∈ st'.2, (e ∈ l ∨ e ∈ st.2) ∧ e ≠ a ∧ vis e = false ∧ getWeight cs vl a e = st'.1) ∧
      (∀ e ∈ l, e ≠ a → vis e = false → getWeight cs vl a e ≤ st'.1) ∧
      (∀ e ∈ l, e ≠ a → vis e = false → getWeight cs vl a e = st'.1 → e ∈ st'.2) ∧
      (st'.1 = st.1 → st.2 <+: st'.2) := by
  intro l
  induction l with
  | nil =>
    intro st _ _ h3 h4 h5
    exact ⟨h3, le_refl _, fun e he => ⟨.inr he, h4 e he⟩, by simp, by simp,
      fun _ => List.prefix_refl _⟩
  | cons x l ih =>
    intro st h1 h2 h3 h4 h5
    obtain ⟨hx, hl⟩ := List.nodup_cons.1 h1
    have h2' : ∀ e ∈ st.2, e ≠ x ∧ e ∉ l := fun e he => by
      have := h2 e he; simp at this; exact this
    simp only [List.foldl_cons]
    by_cases hxa : x = a
    · rw [show argmaxStep cs vl vis a st x = st by simp [argmaxStep, hxa]]
      obtain ⟨i1, i2, i3, i4, i5, i6⟩ := ih st hl (fun e he => (h2' e he).2) h3 h4 h5
      refine ⟨i1, i2, ?_, ?_, ?_, i6⟩
      · intro e he
        obtain ⟨j1, j2⟩ := i3 e he
        exact ⟨j1.imp (List.mem_cons_of_mem _) id, j2⟩
      · intro e he hea hv
        rcases List.mem_cons.1 he with rfl | he
        · exact absurd hxa hea
        · exact i4 e he hea hv
      · intro e he hea hv
        rcases List.mem_cons.1 he with rfl | he
        · exact absurd hxa hea
        · exact i5 e he hea hv
    · by_cases hw : st.1 ≤ getWeight cs vl a x ∧ vis x = false
      · by_cases hlt : st.1 < getWeight cs vl a x
        · rw [show argmaxStep cs vl vis a st x = (getWeight cs vl a x, [x]) by
            simp only [argmaxStep, if_neg hxa, if_pos hw, if_pos hlt]]
          obtain ⟨i1, i2, i3, i4, i5, i6⟩ := ih (getWeight cs vl a x, [x]) hl
            (by simpa using hx) (by simp) (by simpa using ⟨hxa, hw.2⟩) (by simp; omega)
          simp only at i1 i2 i3 i4 i5 i6
          refine ⟨i1, by omega, ?_, ?_, ?_, by intro h; omega⟩
          · intro e he
            obtain ⟨j1, j2⟩ := i3 e he
            refine ⟨.inl ?_, j2⟩
            rcases j1 with j1 | j1
            · exact List.mem_cons_of_mem _ j1
            · simp at j1; simp [j1]
          · intro e he hea hv
            rcases List.mem_cons.1 he with rfl | he
            · exact i2
            · exact i4 e he hea hv
          · intro e he hea hv hwe
            rcases List.mem_cons.1 he with rfl | he
            · exact (i6 hwe.symm).subset (by simp)
            · exact i5 e he hea hv hwe
        · rw [show argmaxStep cs vl vis a st x = (st.1, st.2 ++ [x]) by
            simp only [argmaxStep, if_neg hxa, if_pos hw, if_neg hlt]]
          have hEq : getWeight cs vl a x = st.1 := by omega
          obtain ⟨i1, i2, i3, i4, i5, i6⟩ := ih (st.1, st.2 ++ [x]) hl
            (by
              intro e he
              rcases List.mem_append.1 he with he | he
              · exact (h2' e he).2
              · simp at he; subst he; exact hx)
            (by
              rw [List.nodup_append]
              refine ⟨h3, by simp, ?_⟩
              intro e he b hb
              simp at hb; subst hb; exact (h2' e he).1)
            (by
              intro e he
              rcases List.mem_append.1 he with he | he
              · exact h4 e he
              · simp at he; subst he; exact ⟨hxa, hw.2, hEq⟩) h5
          simp only at i1 i2 i3 i4 i5 i6
          refine ⟨i1, i2, ?_, ?_, ?_, fun h => (List.prefix_append _ _).trans (i6 h)⟩
          · intro e he
            obtain ⟨j1, j2⟩ := i3 e he
            refine ⟨?_, j2⟩
            rcases j1 with j1 | j1
            · exact .inl (List.mem_cons_of_mem _ j1)
            · rcases List.mem_append.1 j1 with j1 | j1
              · exact .inr j1
              · simp at j1; simp [j1]
          · intro e he hea hv
            rcases List.mem_cons.1 he with rfl | he
            · omega
            · exact i4 e he hea hv
          · intro e he hea hv hwe
            rcases List.mem_cons.1 he with rfl | he
            · exact (i6 (by omega)).subset (by simp)
            · exact i5 e he hea hv hwe
      · rw [show argmaxStep cs vl vis a st x = st by
          simp only [argmaxStep, if_neg hxa, if_neg hw]]
        obtain ⟨i1, i2, i3, i4, i5, i6⟩ := ih st hl (fun e he => (h2' e he).2) h3 h4 h5
        refine ⟨i1, i2, ?_, ?_, ?_, i6⟩
        · intro e he
          obtain ⟨j1, j2⟩ := i3 e he
          exact ⟨j1.imp (List.mem_cons_of_mem _) id, j2⟩
        · intro e he hea hv
          rcases List.mem_cons.1 he with rfl | he
          · by_contra hcon
            exact hw ⟨by omega, hv⟩
          · exact i4 e he hea hv
        · intro e he hea hv hwe
          rcases List.mem_cons.1 he with rfl | he
          · by_contra hcon
            exact hw ⟨by omega, hv⟩
          · exact i5 e he hea hv hwe

/-- The candidates are exactly the unvisited other cliques of maximum weight, if that is positive. -/
theorem mem_argmax (cs : List (List Nat)) (vl : Option (Nat → Bool)) (vis : Nat → Bool) (a : Nat) :
    (argmax cs vl vis a).Nodup ∧
    ∀ e, e ∈ argmax cs vl vis a ↔ (e < cs.length ∧ e ≠ a ∧ vis e = false ∧
      1 ≤ getWeight cs vl a e ∧
      ∀ i, i < cs.length → i ≠ a → vis i = false → getWeight cs vl a i ≤ getWeight cs vl a e) := by
  obtain ⟨i1, i2, i3, i4, i5, i6⟩ := argmax_fold cs vl vis a (List.range cs.length) (1, [])
    List.nodup_range (by simp) (by simp) (by simp) (by simp)
  simp only [List.not_mem_nil, or_false, List.mem_range] at i3 i4 i5
  refine ⟨i1, fun e => ⟨fun he => ?_, ?_⟩⟩
  · obtain ⟨j1, j2, j3, j4⟩ := i3 e he
    refine ⟨j1, j2, j3, by rw [j4]; exact i2, ?_⟩
    intro i hi hia hv
    rw [j4]
    exact i4 i hi hia hv
  · rintro ⟨j1, j2, j3, j4, j5⟩
    refine i5 e j1 j2 j3 (le_antisymm (i4 e j1 j2 j3) ?_)
    -- the final maximum is attained, or it is the initial value 1
    by_cases hne : argmax cs vl vis a = []
    · have hone : ((List.range cs.length).foldl (argmaxStep cs vl vis a) (1, [])).1 ≤ 1 := by
        by_contra hgt
        -- a value above the initial one comes with a candidate
        have key : ∀ (l : List Nat) (st : Nat × List Nat), (1 < st.1 → st.2 ≠ []) →
            1 < (l.foldl (argmaxStep cs vl vis a) st).1 →
            (l.foldl (argmaxStep cs vl vis a) st).2 ≠ [] := by
          intro l
          induction l with
          | nil => intro st h; simpa using h
          | cons x l ih =>
            intro st h
            simp only [List.foldl_cons]
            apply ih
            unfold argmaxStep
            simp only
            split_ifs <;> simp_all
        exact key _ (1, []) (by simp) (by omega) hne
      omega
    · obtain ⟨b, hb⟩ := List.exists_mem_of_ne_nil _ hne
      obtain ⟨k1, k2, k3, k4⟩ := i3 b hb
      rw [← k4]
      exact j5 b k1 k2 k3

theorem argmax_nil {cs : List (List Nat)} {vl : Option (Nat → Bool)} {vis : Nat → Bool} {a : Nat}
    (h : argmax cs vl vis a = []) :
    ∀ i, i < cs.length → i ≠ a → vis i = false → getWeight cs vl a i = 0 := by
  intro i hi hia hv
  by_contra hne
  obtain ⟨_, hm⟩ := mem_argmax cs vl vis a
  -- take a maximiser of the weight over the unvisited cliques
  obtain ⟨m, hm1, hm2⟩ := Finset.exists_max_image
    ((Finset.range cs.length).filter (fun j => j ≠ a ∧ vis j = false))
    (fun j => getWeight cs vl a j) ⟨i, by simp [hi, hia, hv]⟩
  simp only [Finset.mem_filter, Finset.mem_range] at hm1 hm2
  have : m ∈ argmax cs vl vis a := (hm m).2 ⟨hm1.1, hm1.2.1, hm1.2.2, by
    have := hm2 i ⟨hi, hia, hv⟩; omega, fun j h1 h2 h3 => hm2 j ⟨h1, h2, h3⟩⟩
  rw [h] at this
  simp at this

/-- The invariant of the traversal. `r` labels each visited clique with the root of its tree. -/
structure PInv (cs : List (List Nat)) (root : Nat) (s : PState) (r : Nat → Nat) : Prop where
  lt : ∀ i ∈ s.order, i < cs.length
  nodup : s.order.Nodup
  vis : ∀ i, s.visited i = true ↔ i ∈ s.order
  stack_ne : s.stack ≠ []
  stack_lt : ∀ i ∈ s.stack, i < cs.length
  stack_nodup : s.stack.Nodup
  stack_vis : (∀ i ∈ s.stack, i ∈ s.order) ∨ ∃ a, s.stack = [a] ∧ a ∉ s.order
  tree : ∀ i ∈ s.order, (s.parent i = i ∧ s.height i = 0 ∧ s.sep i = [] ∧ r i = i) ∨
    (s.parent i ≠ i ∧ Before s.order (s.parent i) i ∧ s.height i = s.height (s.parent i) + 1 ∧
      s.sep i = setInter (cliqueAt cs (s.parent i)) (cliqueAt cs i) ∧ r i = r (s.parent i))
  sep_unv : ∀ i, i ∉ s.order → s.sep i = []
  closed : ∀ i ∈ s.order, i ∉ s.stack → ∀ j, j < cs.length → j ∉ s.order →
    ∀ v, v ∈ cliqueAt cs i → v ∉ cliqueAt cs j
  same : ∀ i ∈ s.stack, i ∈ s.order → ∀ j ∈ s.stack, j ∈ s.order → r i = r j
  conn : ∀ i ∈ s.order, ∀ j ∈ s.order, ∀ v, v ∈ cliqueAt cs i → v ∈ cliqueAt cs j → r i = r j
  head : (s.order = [] ∧ s.stack = [root]) ∨ s.order.head? = some root

theorem Spec.Before.append {α : Type} {l : List α} {a b : α} (h : Before l a b) (m : List α) :
    Before (l ++ m) a b := by
  obtain ⟨pre, suf, rfl, ha⟩ := h
  exact ⟨pre, suf ++ m, by simp, ha⟩

theorem Spec.Before.mem_left {α : Type} {l : List α} {a b : α} (h : Before l a b) : a ∈ l := by
  obtain ⟨pre, suf, rfl, ha⟩ := h
  simp [ha]

theorem Spec.Before.mem_right {α : Type} {l : List α} {a b : α} (h : Before l a b) : b ∈ l := by
  obtain ⟨pre, suf, rfl, ha⟩ := h
  simp

theorem upd_same {α : Type} (f : Nat → α) (i : Nat) (a : α) : upd f i a i = a := by simp [upd]

theorem upd_ne {α : Type} (f : Nat → α) {i k : Nat} (a : α) (h : k ≠ i) : upd f i a k = f k := by
  simp [upd, h]

theorem PInv.unvis {cs : List (List Nat)} {root : Nat} {s : PState} {r : Nat → Nat}
    (h : PInv cs root s r) (i : Nat) : s.visited i = false ↔ i ∉ s.order := by
  rw [← h.vis i]
  cases s.visited i <;> simp

/-- `visitTop` keeps the invariant, and afterwards the whole stack is visited. -/
theorem PInv.visitTop {cs : List (List Nat)} {root : Nat} {s : PState} {r : Nat → Nat}
    (h : PInv cs root s r) {a : Nat} {rest : List Nat} (hst : s.stack = a :: rest) :
    ∃ r', PInv cs root (visitTop s a) r' ∧ (Clique.visitTop s a).stack = a :: rest ∧
      (∀ i ∈ a :: rest, i ∈ (Clique.visitTop s a).order) ∧
      ((Clique.visitTop s a).order = s.order ∨
        (rest = [] ∧ a ∉ s.order ∧ (Clique.visitTop s a).order = s.order ++ [a])) := by
  by_cases hv : s.visited a = false
  · have ha : a ∉ s.order := (h.unvis a).1 hv
    have hsingle : rest = [] := by
      rcases h.stack_vis with h1 | ⟨b, hb, _⟩
      · exact absurd (h1 a (by simp [hst])) ha
      · rw [hst] at hb; simp at hb; exact hb.2
    subst hsingle
    have hno : ∀ i ∈ s.order, i ∉ s.stack := by
      intro i hi hs
      rw [hst] at hs; simp at hs; subst hs; exact ha hi
    have halt : a < cs.length := h.stack_lt a (by simp [hst])
    refine ⟨upd r a a, ?_, by simp [Clique.visitTop, hv, hst], by simp [Clique.visitTop, hv],
      .inr ⟨rfl, ha, by simp [Clique.visitTop, hv]⟩⟩
    have hne : ∀ i ∈ s.order, i ≠ a := fun i hi e => ha (e ▸ hi)
    unfold Clique.visitTop
    rw [if_pos hv]
    constructor
    · intro i hi
      simp at hi
      rcases hi with hi | rfl
      · exact h.lt i hi
      · exact halt
    · simp only [List.nodup_append]
      refine ⟨h.nodup, by simp, ?_⟩
      intro x hx y hy
      simp at hy; subst hy; exact hne x hx
    · intro i
      simp only [upd, List.mem_append, List.mem_singleton]
      by_cases hi : i = a
      · simp [hi]
      · simp [hi, h.vis]
    · exact h.stack_ne
    · exact h.stack_lt
    · exact h.stack_nodup
    · left
      intro i hi
      simp only [hst, List.mem_singleton] at hi
      simp [hi]
    · intro i hi
      simp only [List.mem_append, List.mem_singleton] at hi
      rcases hi with hi | rfl
      · simp only [upd_ne _ _ (hne i hi)]
        rcases h.tree i hi with ⟨t1, t2, t3, t4⟩ | ⟨t1, t2, t3, t4, t5⟩
        · exact .inl ⟨t1, t2, t3, t4⟩
        · refine .inr ⟨t1, t2.append _, ?_, t4, ?_⟩
          · rw [upd_ne _ _ (hne _ t2.mem_left)]; exact t3
          · rw [upd_ne _ _ (hne _ t2.mem_left)]; exact t5
      · left
        simp only [upd_same, true_and]
        exact ⟨h.sep_unv _ ha, trivial⟩
    · intro i hi
      simp only [List.mem_append, not_or] at hi
      exact h.sep_unv i hi.1
    · intro i hi his j hj hjo
      simp only [List.mem_append, List.mem_singleton, not_or] at hi hjo
      rcases hi with hi | rfl
      · exact h.closed i hi his j hj hjo.1
      · exact absurd (by simp [hst]) his
    · intro i hi _ j hj _
      simp only [hst, List.mem_singleton] at hi hj
      rw [hi, hj]
    · intro i hi j hj v hvi hvj
      simp only [List.mem_append, List.mem_singleton] at hi hj
      rcases hi with hi | rfl
      · rcases hj with hj | rfl
        · rw [upd_ne _ _ (hne i hi), upd_ne _ _ (hne j hj)]
          exact h.conn i hi j hj v hvi hvj
        · exact absurd hvj (h.closed i hi (hno i hi) _ halt ha v hvi)
      · rcases hj with hj | rfl
        · exact absurd hvi (h.closed j hj (hno j hj) _ halt ha v hvj)
        · rfl
    · right
      rcases h.head with ⟨h1, h2⟩ | h1
      · rw [hst] at h2; simp at h2
        simp [h1, h2]
      · simp [List.head?_append, h1]
  · have hv' : s.visited a = true := by simpa using hv
    have ha : a ∈ s.order := (h.vis a).1 hv'
    have e : Clique.visitTop s a = s := by simp [Clique.visitTop, hv']
    rw [e]
    refine ⟨r, h, hst, ?_, .inl rfl⟩
    rw [← hst]
    rcases h.stack_vis with h1 | ⟨b, hb, hb2⟩
    · exact h1
    · rw [hst] at hb; simp at hb; exact absurd (hb.1 ▸ ha) hb2

/-- `pushChild` keeps the invariant. -/
theorem PInv.pushChild {cs : List (List Nat)} {root : Nat} {s : PState} {r : Nat → Nat}
    (h : PInv cs root s r) {a e : Nat} (hall : ∀ i ∈ s.stack, i ∈ s.order) (ha : a ∈ s.stack)
    (he : e < cs.length) (hv : e ∉ s.order) :
    ∃ r', PInv cs root (pushChild cs a s e) r' ∧
      (∀ i ∈ (Clique.pushChild cs a s e).stack, i ∈ (Clique.pushChild cs a s e).order) := by
  have hne : ∀ i ∈ s.order, i ≠ e := fun i hi x => hv (x ▸ hi)
  have hao : a ∈ s.order := hall a ha
  have hae : a ≠ e := hne a hao
  refine ⟨upd r e (r a), ?_, ?_⟩
  swap
  · intro i hi
    simp only [Clique.pushChild, List.mem_cons] at hi ⊢
    rcases hi with rfl | hi
    · simp
    · simp [hall i hi]
  unfold Clique.pushChild
  constructor
  · intro i hi
    simp at hi
    rcases hi with hi | rfl
    · exact h.lt i hi
    · exact he
  · simp only [List.nodup_append]
    refine ⟨h.nodup, by simp, ?_⟩
    intro x hx y hy
    simp at hy; subst hy; exact hne x hx
  · intro i
    simp only [upd, List.mem_append, List.mem_singleton]
    by_cases hi : i = e
    · simp [hi]
    · simp [hi, h.vis]
  · simp
  · intro i hi
    simp at hi
    rcases hi with rfl | hi
    · exact he
    · exact h.stack_lt i hi
  · exact List.nodup_cons.2 ⟨fun hs => hv (hall e hs), h.stack_nodup⟩
  · left
    intro i hi
    simp only [List.mem_cons] at hi
    rcases hi with rfl | hi
    · simp
    · simp [hall i hi]
  · intro i hi
    simp only [List.mem_append, List.mem_singleton] at hi
    rcases hi with hi | rfl
    · simp only [upd_ne _ _ (hne i hi)]
      rcases h.tree i hi with ⟨t1, t2, t3, t4⟩ | ⟨t1, t2, t3, t4, t5⟩
      · exact .inl ⟨t1, t2, t3, t4⟩
      · refine .inr ⟨t1, t2.append _, ?_, t4, ?_⟩
        · rw [upd_ne _ _ (hne _ t2.mem_left)]; exact t3
        · rw [upd_ne _ _ (hne _ t2.mem_left)]; exact t5
    · right
      simp only [upd_same]
      exact ⟨hae, ⟨s.order, [], rfl, hao⟩, by rw [upd_ne _ _ hae], trivial, by rw [upd_ne _ _ hae]⟩
  · intro i hi
    simp only [List.mem_append, List.mem_singleton, not_or] at hi
    simp only [upd_ne _ _ hi.2]
    exact h.sep_unv i hi.1
  · intro i hi his j hj hjo
    simp only [List.mem_append, List.mem_cons, List.not_mem_nil, or_false, not_or] at hi hjo his
    rcases hi with hi | rfl
    · exact h.closed i hi his.2 j hj hjo.1
    · exact absurd rfl his.1
  · have key : ∀ i ∈ e :: s.stack, upd r e (r a) i = r a := by
      intro i hi
      rcases List.mem_cons.1 hi with rfl | hi
      · exact upd_same _ _ _
      · rw [upd_ne _ _ (hne i (hall i hi))]
        exact h.same i hi (hall i hi) a ha hao
    intro i hi _ j hj _
    rw [key i hi, key j hj]
  · have key : ∀ i ∈ s.order, ∀ v, v ∈ cliqueAt cs i → v ∈ cliqueAt cs e → r i = r a := by
      intro i hi v hvi hve
      by_cases his : i ∈ s.stack
      · exact h.same i his hi a ha hao
      · exact absurd hve (h.closed i hi his e he hv v hvi)
    intro i hi j hj v hvi hvj
    simp only [List.mem_append, List.mem_singleton] at hi hj
    rcases hi with hi | rfl
    · rcases hj with hj | rfl
      · rw [upd_ne _ _ (hne i hi), upd_ne _ _ (hne j hj)]
        exact h.conn i hi j hj v hvi hvj
      · rw [upd_ne _ _ (hne i hi), upd_same]
        exact key i hi v hvi hvj
    · rcases hj with hj | rfl
      · rw [upd_ne _ _ (hne j hj), upd_same]
        exact (key j hj v hvj hvi).symm
      · rfl
  · right
    rcases h.head with ⟨h1, h2⟩ | h1
    · rw [h1] at hao; simp at hao
    · simp [List.head?_append, h1]

/-- `pushChildren` keeps the invariant and visits at least one new clique. -/
theorem PInv.pushChildren {cs : List (List Nat)} {root : Nat} (vl : Option (Nat → Bool)) {a : Nat} :
    ∀ (es : List Nat) {s : PState} {r : Nat → Nat}, PInv cs root s r →
      (∀ i ∈ s.stack, i ∈ s.order) → a ∈ s.stack →
      (∀ e ∈ es, e < cs.length ∧ e ∉ s.order) → es.Nodup →
      ∃ r' k, PInv cs root (pushChildren cs vl a s es) r' ∧
        (∀ i ∈ (Clique.pushChildren cs vl a s es).stack,
          i ∈ (Clique.pushChildren cs vl a s es).order) ∧
        (Clique.pushChildren cs vl a s es).order.length = s.order.length + k ∧
        (Clique.pushChildren cs vl a s es).stack.length = s.stack.length + k ∧
        (es ≠ [] → 1 ≤ k) := by
  intro es
  induction es with
  | nil =>
    intro s r h hall _ _ _
    exact ⟨r, 0, h, hall, rfl, rfl, by simp⟩
  | cons e es ih =>
    intro s r h hall ha hes hnd
    obtain ⟨he, hv⟩ := hes e (by simp)
    obtain ⟨r1, h1, hall1⟩ := h.pushChild hall ha he hv
    have hstep : ∃ r' k, PInv cs root (Clique.pushChildren cs vl a (Clique.pushChild cs a s e) es) r' ∧
        (∀ i ∈ (Clique.pushChildren cs vl a (Clique.pushChild cs a s e) es).stack,
          i ∈ (Clique.pushChildren cs vl a (Clique.pushChild cs a s e) es).order) ∧
        (Clique.pushChildren cs vl a (Clique.pushChild cs a s e) es).order.length =
          s.order.length + (k + 1) ∧
        (Clique.pushChildren cs vl a (Clique.pushChild cs a s e) es).stack.length =
          s.stack.length + (k + 1) := by
      obtain ⟨r', k, j1, j2, j3, j4, _⟩ := ih h1 hall1
        (by simp [Clique.pushChild, ha])
        (by
          intro x hx
          refine ⟨(hes x (by simp [hx])).1, ?_⟩
          simp only [Clique.pushChild, List.mem_append, List.mem_singleton, not_or]
          exact ⟨(hes x (by simp [hx])).2, fun hxe => (List.nodup_cons.1 hnd).1 (hxe ▸ hx)⟩)
        (List.nodup_cons.1 hnd).2
      refine ⟨r', k, j1, j2, ?_, ?_⟩
      · rw [j3]; simp [Clique.pushChild]; omega
      · rw [j4]; simp [Clique.pushChild]; omega
    unfold Clique.pushChildren
    cases vl with
    | none =>
      obtain ⟨r', k, j1, j2, j3, j4⟩ := hstep
      exact ⟨r', k + 1, j1, j2, j3, j4, by simp⟩
    | some v =>
      simp only
      split
      · obtain ⟨r', k, j1, j2, j3, j4⟩ := hstep
        exact ⟨r', k + 1, j1, j2, j3, j4, by simp⟩
      · exact ⟨r1, 1, h1, hall1, by simp [Clique.pushChild], by simp [Clique.pushChild], by simp⟩

theorem getUnvisited_none {n : Nat} {vis : Nat → Bool} (h : getUnvisited n vis = none) :
    ∀ i, i < n → vis i = true := by
  intro i hi
  have := List.find?_eq_none.1 h i (by simp [hi])
  simpa using this

theorem getUnvisited_some {n a : Nat} {vis : Nat → Bool} (h : getUnvisited n vis = some a) :
    a < n ∧ vis a = false := by
  have h1 := List.find?_some h
  have h2 := List.mem_of_find?_eq_some h
  simp at h1 h2
  exact ⟨h2, h1⟩

/-- The termination measure: unvisited cliques count twice, visited cliques on the stack once. -/
def measure (cs : List (List Nat)) (s : PState) : Nat :=
  2 * (cs.length - s.order.length) + (s.stack.filter (fun i => s.order.contains i)).length

theorem PInv.order_length_le {cs : List (List Nat)} {root : Nat} {s : PState} {r : Nat → Nat}
    (h : PInv cs root s r) : s.order.length ≤ cs.length := by
  have := (List.subperm_of_subset h.nodup
    (fun i hi => by simpa using h.lt i hi : s.order ⊆ List.range cs.length)).length_le
  simpa using this

theorem measure_of_all {cs : List (List Nat)} {s : PState} (h : ∀ i ∈ s.stack, i ∈ s.order) :
    measure cs s = 2 * (cs.length - s.order.length) + s.stack.length := by
  unfold measure
  rw [List.filter_eq_self.2]
  intro i hi
  simpa using h i hi

/-- One pass keeps the invariant and decreases the measure; `break` happens only when every clique
is visited. -/
theorem pickStep_spec {cs : List (List Nat)} (hsorted : SortedCliques cs) {root : Nat} {s : PState}
    {r : Nat → Nat} (vl : Option (Nat → Bool)) (h : PInv cs root s r) :
    (∃ s' r', pickStep cs vl s = some s' ∧ PInv cs root s' r' ∧ measure cs s' < measure cs s) ∨
    (pickStep cs vl s = none ∧ (∃ r', PInv cs root (pickBreakState s) r') ∧
      (pickBreakState s).order.length = cs.length) := by
  cases hst : s.stack with
  | nil => exact absurd hst h.stack_ne
  | cons a rest =>
    obtain ⟨r1, h1, hs1, hall, hord⟩ := h.visitTop hst
    have hall' : ∀ i ∈ (Clique.visitTop s a).stack, i ∈ (Clique.visitTop s a).order := by
      rw [hs1]; exact hall
    -- the measure does not grow in `visitTop`
    have hm1 : measure cs (Clique.visitTop s a) ≤ measure cs s := by
      rcases hord with hord | ⟨hr, hna, hord⟩
      · have : measure cs (Clique.visitTop s a) = measure cs s := by
          unfold measure
          rw [hs1, hord, hst]
        omega
      · have hle := h1.order_length_le
        rw [measure_of_all hall', hs1, hord, hr]
        rw [hord] at hle
        unfold measure
        simp only [List.length_append, List.length_cons, List.length_nil] at hle ⊢
        omega
    have hmeq := measure_of_all (cs := cs) hall'
    unfold pickStep pickBreakState
    rw [hst]
    simp only
    cases ham : argmax cs vl (Clique.visitTop s a).visited a with
    | cons x xs =>
      left
      simp only
      obtain ⟨hnd, hmem⟩ := mem_argmax cs vl (Clique.visitTop s a).visited a
      obtain ⟨r', k, j1, j2, j3, j4, j5⟩ := PInv.pushChildren vl (a := a)
        (argmax cs vl (Clique.visitTop s a).visited a) h1 hall' (by rw [hs1]; simp)
        (by
          intro e he
          obtain ⟨m1, _, m3, _⟩ := (hmem e).1 he
          exact ⟨m1, (h1.unvis e).1 m3⟩) hnd
      rw [ham] at j1 j2 j3 j4 j5
      refine ⟨_, r', rfl, j1, ?_⟩
      have hle := j1.order_length_le
      have := j5 (by simp)
      rw [measure_of_all j2, j3, j4]
      rw [j3] at hle
      omega
    | nil =>
      simp only
      have hclosed : ∀ j, j < cs.length → j ∉ (Clique.visitTop s a).order →
          ∀ v, v ∈ cliqueAt cs a → v ∉ cliqueAt cs j := by
        intro j hj hjo v hva hvj
        have hja : j ≠ a := fun e => hjo (e ▸ hall a (by simp))
        have hw := argmax_nil ham j hj hja ((h1.unvis j).2 hjo)
        have hl := length_le_getWeight cs vl a j
        have hnil : setInter (cliqueAt cs a) (cliqueAt cs j) = [] := by
          apply List.eq_nil_of_length_eq_zero; omega
        have := (mem_setInter (sorted_cliqueAt hsorted a) (sorted_cliqueAt hsorted j) v).2 ⟨hva, hvj⟩
        rw [hnil] at this
        simp at this
      cases rest with
      | nil =>
        simp only
        cases hgu : getUnvisited cs.length (Clique.visitTop s a).visited with
        | none =>
          right
          refine ⟨rfl, ⟨r1, h1⟩, ?_⟩
          have hall2 := getUnvisited_none hgu
          refine le_antisymm h1.order_length_le ?_
          have := (List.subperm_of_subset (List.nodup_range (n := cs.length))
            (fun i hi => (h1.vis i).1 (hall2 i (by simpa using hi)) :
              List.range cs.length ⊆ (Clique.visitTop s a).order)).length_le
          simpa using this
        | some node =>
          left
          obtain ⟨hn1, hn2⟩ := getUnvisited_some hgu
          have hno := (h1.unvis node).1 hn2
          refine ⟨_, r1, rfl, ?_, ?_⟩
          · constructor
            · exact h1.lt
            · exact h1.nodup
            · exact h1.vis
            · simp
            · simpa using hn1
            · simp
            · right; exact ⟨node, rfl, hno⟩
            · exact h1.tree
            · exact h1.sep_unv
            · intro i hi _ j hj hjo
              by_cases hia : i = a
              · subst hia; exact hclosed j hj hjo
              · exact h1.closed i hi (by rw [hs1]; simpa using hia) j hj hjo
            · intro i hi hio
              simp at hi; subst hi; exact absurd hio hno
            · exact h1.conn
            · right
              rcases h1.head with ⟨e1, e2⟩ | e1
              · have := hall a (by simp)
                rw [e1] at this; simp at this
              · exact e1
          · refine lt_of_lt_of_le ?_ hm1
            rw [hmeq, hs1]
            unfold measure
            simp [hno]
      | cons b bs =>
        left
        simp only
        refine ⟨_, r1, rfl, ?_, ?_⟩
        · have hnd := h1.stack_nodup
          rw [hs1] at hnd
          constructor
          · exact h1.lt
          · exact h1.nodup
          · exact h1.vis
          · simp
          · intro i hi
            exact h1.stack_lt i (by rw [hs1]; exact List.mem_cons_of_mem _ hi)
          · exact (List.nodup_cons.1 hnd).2
          · left
            intro i hi
            exact hall i (List.mem_cons_of_mem _ hi)
          · exact h1.tree
          · exact h1.sep_unv
          · intro i hi his j hj hjo
            by_cases hia : i = a
            · subst hia; exact hclosed j hj hjo
            · exact h1.closed i hi (by rw [hs1]; simp only [List.mem_cons] at his ⊢; tauto) j hj hjo
          · intro i hi hio j hj hjo
            exact h1.same i (by rw [hs1]; exact List.mem_cons_of_mem _ hi) hio j
              (by rw [hs1]; exact List.mem_cons_of_mem _ hj) hjo
          · exact h1.conn
          · right
            rcases h1.head with ⟨e1, e2⟩ | e1
            · have := hall a (by simp)
              rw [e1] at this; simp at this
            · exact e1
        · refine lt_of_lt_of_le ?_ hm1
          rw [hmeq, hs1, measure_of_all (s := { Clique.visitTop s a with stack := b :: bs })
            (fun i hi => hall i (List.mem_cons_of_mem _ hi))]
          simp

theorem pickLoop_spec {cs : List (List Nat)} (hsorted : SortedCliques cs) {root : Nat}
    (vl : Option (Nat → Bool)) :
    ∀ (fuel : Nat) {s : PState} {r : Nat → Nat}, PInv cs root s r → measure cs s ≤ fuel →
      ∃ s' r', pickLoop cs vl fuel s = some s' ∧ PInv cs root s' r' ∧
        s'.order.length = cs.length := by
  intro fuel
  induction fuel with
  | zero =>
    intro s r h hm
    have hle := h.order_length_le
    have : ¬ s.order.length < cs.length := by
      unfold measure at hm; omega
    exact ⟨s, r, by simp [pickLoop, this], h, by omega⟩
  | succ fuel ih =>
    intro s r h hm
    unfold pickLoop
    by_cases hlt : s.order.length < cs.length
    · rw [if_pos hlt]
      rcases pickStep_spec hsorted vl h with ⟨s', r', e, h', hm'⟩ | ⟨e, ⟨r', h'⟩, hl⟩
      · rw [e]
        exact ih h' (by omega)
      · rw [e]
        exact ⟨_, r', rfl, h', hl⟩
    · rw [if_neg hlt]
      have hle := h.order_length_le
      exact ⟨s, r, rfl, h, by omega⟩

theorem pinv_init (cs : List (List Nat)) {root : Nat} (h : root < cs.length) :
    PInv cs root (pickInit root) (fun i => i) := by
  constructor <;> simp [pickInit, h]

/-- The traversal terminates within the fuel of the model. -/
theorem pickHelper_spec {cs : List (List Nat)} (hsorted : SortedCliques cs) {root : Nat}
    (vl : Option (Nat → Bool)) (h : root < cs.length) :
    ∃ s r, pickHelper cs vl root = some s ∧ PInv cs root s r ∧ s.order.length = cs.length :=
  pickLoop_spec hsorted vl _ (pinv_init cs h) (by simp [measure, pickInit])

/-- What the rest of the analysis uses. `o` is the order in which cliques were visited. -/
structure TreeOK (cs : List (List Nat)) (root : Nat) (o : List Nat) (par ht : Nat → Nat)
    (sep : Nat → List Nat) (r : Nat → Nat) : Prop where
  perm : o.Perm (List.range cs.length)
  head : o.head? = some root
  forest : Forest cs.length par ht r
  before : ∀ i, i < cs.length → par i ≠ i → Before o (par i) i
  sepRoot : ∀ i, i < cs.length → par i = i → sep i = []
  sepNode : ∀ i, i < cs.length → par i ≠ i → sep i = setInter (cliqueAt cs (par i)) (cliqueAt cs i)
  sepOut : ∀ i, cs.length ≤ i → sep i = []
  conn : ∀ i, i < cs.length → ∀ j, j < cs.length → ∀ v, v ∈ cliqueAt cs i → v ∈ cliqueAt cs j →
    r i = r j

theorem PInv.treeOK {cs : List (List Nat)} {root : Nat} {s : PState} {r : Nat → Nat}
    (h : PInv cs root s r) (hl : s.order.length = cs.length) (hr : root < cs.length) :
    TreeOK cs root s.order s.parent s.height s.sep r := by
  have hsub : s.order ⊆ List.range cs.length := fun i hi => by simpa using h.lt i hi
  have hperm : s.order.Perm (List.range cs.length) :=
    (List.subperm_of_subset h.nodup hsub).perm_of_length_le (by simp [hl])
  have hmem : ∀ i, i < cs.length → i ∈ s.order := fun i hi => hperm.mem_iff.2 (by simpa using hi)
  constructor
  · exact hperm
  · rcases h.head with ⟨h1, _⟩ | h1
    · rw [h1] at hl; simp at hl; omega
    · exact h1
  · constructor
    · intro e he
      rcases h.tree e (hmem e he) with ⟨t, _⟩ | ⟨_, t, _⟩
      · rw [t]; exact he
      · exact h.lt _ t.mem_left
    · intro e he
      rcases h.tree e (hmem e he) with ⟨t1, t2, _, t3⟩ | ⟨t1, _, t2, _, t3⟩
      · exact .inl ⟨t1, t2, t3⟩
      · exact .inr ⟨t1, t2, t3⟩
  · intro i hi hp
    rcases h.tree i (hmem i hi) with ⟨t, _⟩ | ⟨_, t, _⟩
    · exact absurd t hp
    · exact t
  · intro i hi hp
    rcases h.tree i (hmem i hi) with ⟨_, _, t, _⟩ | ⟨t, _⟩
    · exact t
    · exact absurd hp t
  · intro i hi hp
    rcases h.tree i (hmem i hi) with ⟨t, _⟩ | ⟨_, _, _, t, _⟩
    · exact absurd t hp
    · exact t
  · intro i hi
    refine h.sep_unv i (fun hm => ?_)
    have := h.lt i hm
    omega
  · exact fun i hi j hj v => h.conn i (hmem i hi) j (hmem j hj) v

end Verif.Clique
