import Verif.Model.TriangularWorkspace
import Verif.Lemmas.Pattern
import Mathlib.Algebra.Order.Ring.Nat
import Mathlib.Tactic.Ring

/-!
# Lemmas about the triangular workspace
-/

namespace Verif.Sup

open Spec

instance (sizes : List Nat) (k v : Nat) : Decidable (InBlock sizes k v) := by
  unfold InBlock; infer_instance

theorem start_zero (sizes : List Nat) : start sizes 0 = 0 := by simp [start]

theorem start_cons (s : Nat) (ss : List Nat) (k : Nat) :
    start (s :: ss) (k + 1) = s + start ss k := by simp [start]

theorem inBlock_cons_zero (s : Nat) (ss : List Nat) (v : Nat) :
    InBlock (s :: ss) 0 v ↔ v < s := by
  simp [InBlock, start]

theorem inBlock_cons_succ (s : Nat) (ss : List Nat) (k v : Nat) :
    InBlock (s :: ss) (k + 1) v ↔ s ≤ v ∧ InBlock ss k (v - s) := by
  simp only [InBlock, start_cons, List.length_cons]
  omega

theorem varToSn_aux (sizes : List Nat) : ∀ (o v k : Nat),
    ((sizes.zipIdx o).flatMap fun p => List.replicate p.1 p.2)[v]? = some k ↔
      ∃ j, k = o + j ∧ InBlock sizes j v := by
  induction sizes with
  | nil => intro o v k; simp [InBlock]
  | cons s ss ih =>
    intro o v k
    rw [List.zipIdx_cons, List.flatMap_cons]
    by_cases hv : v < s
    · rw [List.getElem?_append_left (by simpa using hv)]
      constructor
      · intro h
        refine ⟨0, ?_, (inBlock_cons_zero s ss v).2 hv⟩
        rw [List.getElem?_replicate] at h
        simp [hv] at h
        omega
      · rintro ⟨j, rfl, hj⟩
        have : j = 0 := hj.unique ((inBlock_cons_zero s ss v).2 hv)
        subst this
        simp [hv]
    · rw [List.getElem?_append_right (by simp; omega)]
      simp only [List.length_replicate]
      rw [ih]
      constructor
      · rintro ⟨j, rfl, hj⟩
        exact ⟨j + 1, by omega, (inBlock_cons_succ s ss j v).2 ⟨by omega, hj⟩⟩
      · rintro ⟨j, rfl, hj⟩
        cases j with
        | zero => exact absurd ((inBlock_cons_zero s ss v).1 hj) hv
        | succ j => exact ⟨j, by omega, ((inBlock_cons_succ s ss j v).1 hj).2⟩

theorem varToPos_aux (sizes : List Nat) : ∀ (v p : Nat),
    (sizes.flatMap List.range)[v]? = some p ↔ ∃ j, InBlock sizes j v ∧ p = v - start sizes j := by
  induction sizes with
  | nil => intro v p; simp [InBlock]
  | cons s ss ih =>
    intro v p
    rw [List.flatMap_cons]
    by_cases hv : v < s
    · rw [List.getElem?_append_left (by simpa using hv)]
      have h0 := (inBlock_cons_zero s ss v).2 hv
      constructor
      · intro h
        refine ⟨0, h0, ?_⟩
        rw [List.getElem?_range hv] at h
        simp [start_zero] at h ⊢
        omega
      · rintro ⟨j, hj, rfl⟩
        have : j = 0 := hj.unique h0
        subst this
        rw [List.getElem?_range hv]
        simp [start_zero]
    · rw [List.getElem?_append_right (by simp; omega)]
      simp only [List.length_range]
      rw [ih]
      constructor
      · rintro ⟨j, hj, rfl⟩
        refine ⟨j + 1, (inBlock_cons_succ s ss j v).2 ⟨by omega, hj⟩, ?_⟩
        rw [start_cons]; omega
      · rintro ⟨j, hj, rfl⟩
        cases j with
        | zero => exact absurd ((inBlock_cons_zero s ss v).1 hj) hv
        | succ j =>
          refine ⟨j, ((inBlock_cons_succ s ss j v).1 hj).2, ?_⟩
          rw [start_cons]; omega

/-- The pairs (position in supernode `b`, position in the separator) of the separator entries that
are columns of block `b`; `i` is the position of the first entry. -/
def pairsOf (sizes : List Nat) (b : Nat) : List Nat → Nat → List (Nat × Nat)
  | [], _ => []
  | v :: vs, i =>
    if InBlock sizes b v then (v - start sizes b, i) :: pairsOf sizes b vs (i + 1)
    else pairsOf sizes b vs (i + 1)

/-- Prefix a non-empty list of pairs with its clique. -/
def consPairs (k : Nat) (ps : List (Nat × Nat)) (l : List (Nat × List (Nat × Nat))) :
    List (Nat × List (Nat × Nat)) :=
  match ps with
  | [] => l
  | _ :: _ => (k, ps) :: l

theorem addPair_cons (k : Nat) (ps : List (Nat × Nat)) (p : Nat × Nat)
    (l : List (Nat × List (Nat × Nat))) (h : ∀ x ∈ l, x.1 ≠ k) :
    addPair (consPairs k ps l) k p = consPairs k (ps ++ [p]) l := by
  cases ps with
  | nil =>
    cases l with
    | nil => rfl
    | cons x l =>
      obtain ⟨c, qs⟩ := x
      have : c ≠ k := h (c, qs) (by simp)
      simp [consPairs, addPair, this]
  | cons q ps => simp [consPairs, addPair]

theorem sepLoop_spec (sizes : List Nat) (k : Nat) (vs : List Nat) :
    ∀ (i : Nat) (A : Nat → List (Nat × Nat)) (old : Nat → List (Nat × List (Nat × Nat))),
    (∀ v ∈ vs, ∃ b, InBlock sizes (b + 1) v) → (∀ sn, ∀ x ∈ old sn, x.1 ≠ k) →
    sepLoop ((sizes.zipIdx).flatMap fun p => List.replicate p.1 p.2) (sizes.flatMap List.range) k vs i
      (fun sn => consPairs k (A sn) (old sn)) =
    .ok (fun sn => consPairs k (A sn ++ pairsOf sizes (sn + 1) vs i) (old sn)) := by
  induction vs with
  | nil => intro i A old _ _; simp [sepLoop, pairsOf]
  | cons v vs ih =>
    intro i A old hv hold
    obtain ⟨b, hb⟩ := hv v (by simp)
    have h1 := (varToSn_aux sizes 0 v (b + 1)).2 ⟨b + 1, by omega, hb⟩
    have h2 := (varToPos_aux sizes v _).2 ⟨b + 1, hb, rfl⟩
    simp only [sepLoop, h1, h2]
    have hupd : (Clique.upd (fun sn => consPairs k (A sn) (old sn)) b
        (addPair (consPairs k (A b) (old b)) k (v - start sizes (b + 1), i))) =
        fun sn => consPairs k (Clique.upd A b (A b ++ [(v - start sizes (b + 1), i)]) sn) (old sn) := by
      funext sn
      by_cases hs : sn = b
      · subst hs
        simp only [Clique.upd, if_true]
        exact addPair_cons k _ _ _ (hold sn)
      · simp [Clique.upd, hs]
    rw [hupd, ih (i + 1) _ old (fun x hx => hv x (List.mem_cons_of_mem _ hx)) hold]
    congr 1
    funext sn
    congr 1
    by_cases hs : sn = b
    · subst hs
      simp [Clique.upd, pairsOf, hb]
    · have : ¬ InBlock sizes (sn + 1) v := fun h => hs (by have := h.unique hb; omega)
      simp [Clique.upd, hs, pairsOf, this]

/-- Expected intersections of block `sn + 1` with the first cliques, last clique first. -/
def interOf (sizes : List Nat) (sn : Nat) : List (List Nat) → Nat →
    List (Nat × List (Nat × Nat)) → List (Nat × List (Nat × Nat))
  | [], _, l => l
  | s :: ss, cnt, l => interOf sizes sn ss (cnt + 1) (consPairs cnt (pairsOf sizes (sn + 1) s 0) l)

theorem interLoop_spec (sizes : List Nat) (ss : List (List Nat)) :
    ∀ (cnt : Nat) (t : Nat → List (Nat × List (Nat × Nat))),
    (∀ s ∈ ss, ∀ v ∈ s, ∃ b, InBlock sizes (b + 1) v) → (∀ sn, ∀ x ∈ t sn, x.1 < cnt) →
    interLoop ((sizes.zipIdx).flatMap fun p => List.replicate p.1 p.2) (sizes.flatMap List.range) ss cnt t =
    .ok (fun sn => interOf sizes sn ss cnt (t sn)) := by
  induction ss with
  | nil => intro cnt t _ _; rfl
  | cons s ss ih =>
    intro cnt t hs ht
    simp only [interLoop]
    have := sepLoop_spec sizes cnt s 0 (fun _ => []) t (hs s (by simp))
      (fun sn x hx => by have := ht sn x hx; omega)
    simp only [consPairs, List.nil_append] at this
    rw [this]
    simp only [Outcome.bind]
    rw [ih (cnt + 1) _ (fun s' hs' => hs s' (List.mem_cons_of_mem _ hs'))]
    · rfl
    · intro sn x hx
      revert hx
      cases hps : pairsOf sizes (sn + 1) s 0 with
      | nil => intro hx; have := ht sn x hx; omega
      | cons p ps =>
        intro hx
        simp only [List.mem_cons] at hx
        rcases hx with rfl | hx
        · exact Nat.lt_succ_self cnt
        · have := ht sn x hx; omega

/-- Everything known about a workspace built for a well-formed pattern. -/
structure WsOK (sz : List Nat) (sp : List (List Nat)) (w : Workspace) : Prop where
  sizes : w.sizes = sz
  seps : w.seps = sp
  snodes : w.snodes = (List.range sz.length).map fun k =>
    List.range' (start sz k) (sz.getD k 0)
  N : w.N = sz.sum
  sn : ∀ v k : Nat, w.varToSn[v]? = some k ↔ InBlock sz k v
  pos : ∀ v p : Nat, w.varToPos[v]? = some p ↔ ∃ k, InBlock sz k v ∧ p = v - start sz k
  inter : ∀ b, w.inter b = interOf sz b sp 0 []

theorem workspaceInit_spec {sizes : List Nat} {seps : List (List Nat)} (P : Pattern sizes seps)
    (hne : sizes ≠ []) {path : List (List Nat)} (hlen : path.length = sizes.length)
    (hpath : ∀ k size s, sizes[k]? = some size → seps[k]? = some s →
      path[k]? = some (List.range' (start sizes k) size ++ s)) :
    ∃ w, workspaceInit path sizes = .ok w ∧ WsOK sizes seps w := by
  have hsl := P.len
  have hk : ∀ k, (h : k < sizes.length) → path[k]? =
      some (List.range' (start sizes k) sizes[k] ++ seps[k]) := fun k h =>
    hpath k _ _ (List.getElem?_eq_getElem h) (List.getElem?_eq_getElem (by omega))
  have h1 : List.zipWith (fun (c : List Nat) s => c.drop s) path sizes = seps := by
    apply List.ext_getElem?
    intro k
    rw [List.getElem?_zipWith]
    by_cases h : k < sizes.length
    · rw [hk k h, List.getElem?_eq_getElem h, List.getElem?_eq_getElem (show k < seps.length by omega)]
      simp
    · rw [List.getElem?_eq_none (show path.length ≤ k by omega),
        List.getElem?_eq_none (show seps.length ≤ k by omega)]
  have h2 : List.zipWith (fun (c : List Nat) s => c.take s) path sizes =
      (List.range sizes.length).map fun k => List.range' (start sizes k) (sizes.getD k 0) := by
    apply List.ext_getElem?
    intro k
    rw [List.getElem?_zipWith, List.getElem?_map]
    by_cases h : k < sizes.length
    · rw [hk k h, List.getElem?_eq_getElem h, List.getElem?_range h]
      simp [List.getD_eq_getElem?_getD, List.getElem?_eq_getElem h]
    · rw [List.getElem?_eq_none (show path.length ≤ k by omega),
        List.getElem?_eq_none (show (List.range sizes.length).length ≤ k by simp; omega)]
      simp
  have h3 : (List.zipWith (fun (c : List Nat) s => decide (s ≤ c.length)) path sizes).all id = true := by
    rw [List.all_eq_true]
    intro x hx
    obtain ⟨k, hkl, rfl⟩ := List.getElem_of_mem hx
    simp only [List.length_zipWith, hlen, min_self] at hkl
    have := hk k hkl
    rw [List.getElem?_eq_some_iff] at this
    obtain ⟨_, hp⟩ := this
    simp [hp]
  have hpne : path ≠ [] := by
    rintro rfl
    exact hne (List.length_eq_zero_iff.1 hlen.symm)
  unfold workspaceInit
  rw [if_neg (by rw [h3]; simp [hpne, hlen])]
  simp only [h1, h2]
  rw [interLoop_spec sizes seps 0 (fun _ => [])]
  · refine ⟨_, rfl, ⟨rfl, rfl, rfl, rfl, ?_, ?_, fun _ => rfl⟩⟩
    · intro v k
      simp only [varToSn_aux]
      constructor
      · rintro ⟨j, rfl, hj⟩; simpa using hj
      · intro h; exact ⟨k, by omega, h⟩
    · intro v p
      exact varToPos_aux sizes v p
  · intro s hs v hv
    obtain ⟨k, hkl, rfl⟩ := List.getElem_of_mem hs
    have ha := P.above k _ (List.getElem?_eq_getElem hkl) v hv
    obtain ⟨b, hb⟩ := exists_block sizes ha.2
    cases b with
    | zero =>
      have h1 := hb.2.2
      have h2 := start_mono sizes (show 0 + 1 ≤ k + 1 by omega)
      omega
    | succ b => exact ⟨b, hb⟩
  · simp

/-! ### Storage -/

theorem le_aligned (n : Nat) : n ≤ aligned n := by unfold aligned; split_ifs <;> omega

theorem aligned_dvd (n : Nat) : 4 ∣ aligned n := by unfold aligned; split_ifs <;> omega

theorem base_succ (w : Workspace) (k : Nat) :
    w.base (k + 1) = w.base k + (w.sizeOfSupernode k + w.sizeOfSeparator k) := by
  simp [Workspace.base, List.range_succ]

theorem base_mono (w : Workspace) {a b : Nat} (h : a ≤ b) : w.base a ≤ w.base b := by
  induction b with
  | zero => simp at h; subst h; exact le_rfl
  | succ b ih =>
    rcases Nat.lt_or_ge a (b + 1) with h' | h'
    · rw [base_succ]; have := ih (by omega); omega
    · have : a = b + 1 := by omega
      subst this; exact le_rfl

theorem base_eq_sizeOf (w : Workspace) (h : w.snodes.length = w.seps.length) :
    w.base w.seps.length = w.sizeOf := by
  unfold Workspace.base Workspace.sizeOf
  rw [h]
  induction w.seps.length with
  | zero => simp
  | succ n ih => simp only [List.range_succ, List.map_append, List.sum_append, ih]; simp; omega

theorem base_dvd (w : Workspace) (k : Nat) : 4 ∣ w.base k := by
  induction k with
  | zero => simp [Workspace.base]
  | succ k ih =>
    rw [base_succ]
    exact Nat.dvd_add ih (Nat.dvd_add (aligned_dvd _) (aligned_dvd _))

theorem colMajor_inj {m r c r' c' : Nat} (hr : r < m) (hr' : r' < m)
    (h : r + c * m = r' + c' * m) : r = r' ∧ c = c' := by
  have h1 : (r + c * m) % m = r := by rw [Nat.add_mul_mod_self_right, Nat.mod_eq_of_lt hr]
  have h2 : (r' + c' * m) % m = r' := by rw [Nat.add_mul_mod_self_right, Nat.mod_eq_of_lt hr']
  have h3 : r = r' := by rw [← h1, h, h2]
  refine ⟨h3, ?_⟩
  subst h3
  have : c * m = c' * m := by omega
  exact Nat.eq_of_mul_eq_mul_right (by omega) this

theorem colMajor_lt {m n r c : Nat} (hr : r < m) (hc : c < n) : r + c * m < m * n := by
  have : (c + 1) * m ≤ n * m := Nat.mul_le_mul_right m hc
  rw [Nat.mul_comm m n]
  have e : (c + 1) * m = c * m + m := by ring
  omega

theorem WsOK.size_eq {sz : List Nat} {sp : List (List Nat)} {w : Workspace} (W : WsOK sz sp w)
    (k : Nat) : w.size k = sz.getD k 0 := by simp [Workspace.size, W.sizes]

theorem WsOK.sep_eq {sz : List Nat} {sp : List (List Nat)} {w : Workspace} (W : WsOK sz sp w)
    (k : Nat) : w.sep k = sp.getD k [] := by simp [Workspace.sep, W.seps]

/-- `LookupAddress` inside the matrix. -/
theorem WsOK.lookup {sz : List Nat} {sp : List (List Nat)} {w : Workspace} (W : WsOK sz sp w)
    {r c a b : Nat} (hr : InBlock sz a r) (hc : InBlock sz b c) :
    w.lookupAddress r c =
      if b = a then .ok (.diag b (r - start sz a) (c - start sz b))
      else if r ∈ sp.getD b [] then .ok (.off b (c - start sz b) ((sp.getD b []).idxOf r))
      else .throws := by
  unfold Workspace.lookupAddress
  rw [(W.sn c b).2 hc, (W.sn r a).2 hr, (W.pos c _).2 ⟨b, hc, rfl⟩, (W.pos r _).2 ⟨a, hr, rfl⟩]
  simp only [W.sep_eq]

/-- Membership in a separator excludes the block itself. -/
theorem Spec.Pattern.sep_not_own {sz : List Nat} {sp : List (List Nat)} (P : Pattern sz sp)
    {b r : Nat} (hr : r ∈ sp.getD b []) : start sz (b + 1) ≤ r ∧ r < sz.sum := by
  by_cases hb : b < sp.length
  · rw [List.getD_eq_getElem?_getD, List.getElem?_eq_getElem hb] at hr
    exact P.above b _ (List.getElem?_eq_getElem hb) r hr
  · rw [List.getD_eq_getElem?_getD, List.getElem?_eq_none (by omega)] at hr
    simp at hr

theorem Spec.Pattern.sep_sorted {sz : List Nat} {sp : List (List Nat)} (P : Pattern sz sp)
    (b : Nat) : (sp.getD b []).Pairwise (· < ·) := by
  by_cases hb : b < sp.length
  · rw [List.getD_eq_getElem?_getD, List.getElem?_eq_getElem hb]
    exact P.sorted b _ (List.getElem?_eq_getElem hb)
  · rw [List.getD_eq_getElem?_getD, List.getElem?_eq_none (by omega)]
    simp

theorem Spec.Pattern.closed' {sz : List Nat} {sp : List (List Nat)} (P : Pattern sz sp)
    {k c r o : Nat} (hc : c ∈ sp.getD k []) (hr : r ∈ sp.getD k []) (hle : c ≤ r)
    (ho : InBlock sz o c) : InBlock sz o r ∨ r ∈ sp.getD o [] := by
  by_cases hb : k < sp.length
  · rw [List.getD_eq_getElem?_getD, List.getElem?_eq_getElem hb] at hc hr
    rcases P.closed k _ (List.getElem?_eq_getElem hb) c hc r hr hle o ho with h | ⟨t, ht, h⟩
    · exact .inl h
    · right
      rw [List.getD_eq_getElem?_getD, ht]; exact h
  · rw [List.getD_eq_getElem?_getD, List.getElem?_eq_none (by omega)] at hc
    simp at hc

theorem mem_lowerPairs {α : Type} {l : List α} {p : α × α} (h : p ∈ lowerPairs l) :
    p.1 ∈ l ∧ p.2 ∈ l := by
  induction l with
  | nil => simp [lowerPairs] at h
  | cons x l ih =>
    simp only [lowerPairs, List.mem_append, List.mem_map] at h
    rcases h with ⟨y, hy, rfl⟩ | h
    · exact ⟨hy, by simp⟩
    · exact ⟨List.mem_cons_of_mem _ (ih h).1, List.mem_cons_of_mem _ (ih h).2⟩

theorem lowerPairs_le {l : List Nat} (hl : l.Pairwise (· < ·)) {p : Nat × Nat}
    (h : p ∈ lowerPairs l) : p.2 ≤ p.1 := by
  induction l with
  | nil => simp [lowerPairs] at h
  | cons x l ih =>
    simp only [lowerPairs, List.mem_append, List.mem_map] at h
    rw [List.pairwise_cons] at hl
    rcases h with ⟨y, hy, rfl⟩ | h
    · rcases List.mem_cons.1 hy with rfl | hy
      · exact le_rfl
      · exact (hl.1 y hy).le
    · exact ih hl.2 h

end Verif.Sup
