import Verif.Lemmas.BlockSolve
import Verif.Lemmas.PosDef

/-!
# When the block Cholesky factorisation accepts a matrix
-/

namespace Verif.Sup

open Finset Spec Verif.Dense Dense.Spec

variable {R : Type} [Field R]
variable {sz : List Nat} {sp : List (List Nat)}

/-- After `m` blocks: the finished columns, and what is left of the matrix. -/
theorem factor_upto (st : Nat → Nat) (N m : Nat) (h0 : st 0 = 0)
    (hst : ∀ k, k < m → st k ≤ st (k + 1)) (F : Nat → Nat → R)
    (hz : ∀ k, k < m → ∀ i j, i < st (k + 1) → st (k + 1) ≤ j → F i j = 0)
    (S : Nat → Nat → Nat → R)
    (hcol : ∀ k, k < m → ∀ i j, st k ≤ j → j < st (k + 1) → j ≤ i → i < N →
      S k i j = ∑ l ∈ Ico (st k) (st (k + 1)), F i l * F j l)
    (hup : ∀ k, k < m → ∀ i j, st (k + 1) ≤ j → j ≤ i → i < N →
      S (k + 1) i j = S k i j - ∑ l ∈ Ico (st k) (st (k + 1)), F i l * F j l) :
    (∀ i j, j ≤ i → i < N → st m ≤ j → S 0 i j = S m i j + ∑ l ∈ range (st m), F i l * F j l) ∧
    (∀ i j, j ≤ i → i < N → j < st m → S 0 i j = ∑ l ∈ range (st m), F i l * F j l) := by
  induction m with
  | zero => simp [h0]
  | succ m ih =>
    obtain ⟨i1, i2⟩ := ih (fun k hk => hst k (by omega)) (fun k hk => hz k (by omega))
      (fun k hk => hcol k (by omega)) (fun k hk => hup k (by omega))
    have hle := hst m (by omega)
    have hsplit : ∀ i j, ∑ l ∈ range (st (m + 1)), F i l * F j l =
        ∑ l ∈ range (st m), F i l * F j l + ∑ l ∈ Ico (st m) (st (m + 1)), F i l * F j l := by
      intro i j
      rw [range_eq_Ico, ← sum_Ico_consecutive _ (Nat.zero_le _) hle, range_eq_Ico]
    constructor
    · intro i j h1 h2 h3
      rw [i1 i j h1 h2 (by omega), hup m (by omega) i j h3 h1 h2, hsplit]
      ring
    · intro i j h1 h2 h3
      rw [hsplit]
      by_cases hj : j < st m
      · rw [i2 i j h1 h2 hj]
        conv_lhs => rw [← add_zero (∑ l ∈ range (st m), F i l * F j l)]
        congr 1
        symm
        refine sum_eq_zero fun l hl => ?_
        rw [mem_Ico] at hl
        have : m ≠ 0 := by rintro rfl; omega
        have hz' := hz (m - 1) (by omega) j l (by rwa [show m - 1 + 1 = m by omega])
          (by rw [show m - 1 + 1 = m by omega]; exact hl.1)
        rw [hz', mul_zero]
      · rw [i1 i j h1 h2 (by omega), hcol m (by omega) i j (by omega) h3 h1 h2]
        ring

/-- The factor as far as it is computed after `m` blocks. -/
theorem cholLoop_facts (P : Pattern sz sp) {path : List (List Nat)} (hp : IsPath sz sp path)
    (hne : sz ≠ []) {w : Workspace} (hw : workspaceInit path sz = .ok w) (W : WsOK sz sp w)
    {llt : Nat → (Nat → Nat → R) → Option (Nat → Nat → R)} (hllt : LltContract llt)
    {S S' : Store R} {m : Nat} (hm : m ≤ sz.length) (h : cholLoop llt w S m = .ok (some S')) :
    ∃ F : Nat → Nat → R, (∀ r q, r < q → q < start sz m → F r q = 0) ∧
      (∀ q, q < start sz m → F q q ≠ 0) ∧
      (∀ i j, j ≤ i → i < sz.sum → start sz m ≤ j →
        ent sz sp S i j = ent sz sp S' i j + ∑ l ∈ range (start sz m), F i l * F j l) ∧
      (∀ i j, j ≤ i → i < sz.sum → j < start sz m →
        ent sz sp S i j = ∑ l ∈ range (start sz m), F i l * F j l) := by
  obtain ⟨T, t1, t2, t3⟩ := cholLoop_steps _ _ h
  have hspec := fun k (hk : k < m) => cholStep_spec P hp hne hw W hllt (k := k) (by omega) (t3 k hk)
  have hkeep : ∀ k, k < m → ∀ a : Cell, a.block = k → T (k + 1) a = S' a := by
    intro k hk a ha
    rw [← t2]
    exact (keep_blocks (fun k hk => (hspec k hk).2.2.2.2) ha m (by omega) le_rfl).symm
  have hlo : ∀ k, k < m → lo (T (k + 1)) k = lo S' k := by
    intro k hk
    funext r c
    unfold lo
    rw [hkeep k hk _ rfl]
  have hoff : ∀ k, k < m → ∀ r c, T (k + 1) (.off k r c) = S' (.off k r c) :=
    fun k hk r c => hkeep k hk _ rfl
  generalize hF : full sz sp (fun b => lo S' b) (fun b r c => S' (.off b r c)) = F
  have hC : ∀ k, ColsOK sz sp k F (lo S' k) (fun r c => S' (.off k r c)) := fun k => by
    rw [← hF]; exact colsOK_full P _ _ k
  have hst : ∀ k, k < m → start sz k ≤ start sz (k + 1) := fun k _ => start_mono sz (by omega)
  have hz : ∀ k, k < sz.length → ∀ i j, i < start sz (k + 1) → start sz (k + 1) ≤ j → F i j = 0 := by
    rw [← hF]; exact fun k hk i j => full_upper P _ _ k hk i j
  have hfac : ∀ k, (hk : k < m) → _ := fun k hk =>
    step_factor P (show k < sz.length by omega) (hC k) (S := T k) (S' := T (k + 1)) (D := fun _ => 1)
      (d := fun _ => 1) (fun _ _ => rfl)
      (by rw [← hlo k hk]; exact (hspec k hk).2.1)
      (by rw [← hlo k hk]; simp only [← hoff k hk]; exact (hspec k hk).2.2.1)
      (by simp only [← hoff k hk]; exact (hspec k hk).2.2.2.1)
  simp only [mul_one] at hfac
  obtain ⟨g1, g2⟩ := factor_upto (start sz) sz.sum m (start_zero sz) hst F
    (fun k hk => hz k (by omega)) (fun k => ent sz sp (T k))
    (fun k hk i j h1 h2 h3 h4 => (hfac k hk).1 i j h1 h2 h3 h4)
    (fun k hk i j h1 h2 h3 => (hfac k hk).2 i j h1 h2 h3)
  simp only [t1, t2] at g1 g2
  have hblk : ∀ q, q < start sz m → ∃ b, b < m ∧ InBlock sz b q := by
    intro q hq
    obtain ⟨b, hb⟩ := exists_block sz (lt_of_lt_of_le hq (start_le sz m))
    refine ⟨b, ?_, hb⟩
    by_contra hcon
    have := start_mono sz (show m ≤ b by omega)
    have := hb.2.1
    omega
  refine ⟨F, ?_, ?_, g1, g2⟩
  · intro r q hrq hq
    obtain ⟨b, hbm, hb⟩ := hblk q hq
    by_cases hr : InBlock sz b r
    · rw [(hC b).diag r q hr hb]
      unfold lo
      rw [if_neg]
      have := hr.2.1
      omega
    · apply (hC b).zero r q hr _ hb
      intro hs
      have := (P.sep_not_own hs).1
      have := hb.2.2
      omega
  · intro q hq
    obtain ⟨b, hbm, hb⟩ := hblk q hq
    rw [(hC b).diag q q hb hb]
    unfold lo
    rw [if_pos le_rfl, ← hkeep b hbm _ rfl]
    exact (hspec b hbm).1 _ hb.sub_lt

theorem assemble_workspace {A : Type} [Zero A] [Add A] {k : Kkt} {G : Nat → Nat → Nat → A} {st st' : Store A}
    {w : Workspace} (ha : assemble k G st = .ok (w, st')) :
    workspaceInit k.data.cliques k.data.supernodeSize = .ok w := by
  unfold assemble at ha
  cases h : workspaceInit k.data.cliques k.data.supernodeSize with
  | throws => rw [h] at ha; simp [Outcome.bind] at ha
  | ub => rw [h] at ha; simp [Outcome.bind] at ha
  | diverges => rw [h] at ha; simp [Outcome.bind] at ha
  | ok w1 =>
    rw [h] at ha
    simp only [Outcome.bind] at ha
    split at ha <;> simp at ha
    split at ha <;> simp at ha
    rw [ha.1]

section Ordered

variable [LinearOrder R]

/-- Positive definiteness does not depend on the order of the unknowns. -/
theorem posDef_perm {l : List Nat} {n : Nat} (h : l.Perm (List.range n)) (M : Nat → Nat → R) :
    PosDef n (fun i j => M (l.getD i 0) (l.getD j 0)) ↔ PosDef n M := by
  have hnd : l.Nodup := h.nodup_iff.2 List.nodup_range
  have hl : l.length = n := by rw [h.length_eq, List.length_range]
  have hlt : ∀ i, i < n → l.getD i 0 < n ∧ l.idxOf (l.getD i 0) = i := by
    intro i hi
    have hi' : i < l.length := by omega
    rw [List.getD_eq_getElem?_getD, List.getElem?_eq_getElem hi', Option.getD_some]
    exact ⟨by simpa using h.mem_iff.1 (List.getElem_mem hi'), hnd.idxOf_getElem _ _⟩
  have hidx : ∀ u, u < n → l.idxOf u < n ∧ l.getD (l.idxOf u) 0 = u := by
    intro u hu
    have hmem : u ∈ l := h.mem_iff.2 (List.mem_range.2 hu)
    have hi := List.idxOf_lt_length_iff.2 hmem
    refine ⟨by omega, ?_⟩
    rw [List.getD_eq_getElem?_getD, List.getElem?_eq_getElem hi, Option.getD_some]
    exact List.getElem_idxOf hi
  have hsum : ∀ f : Nat → R, ∑ i ∈ range n, f (l.getD i 0) = ∑ u ∈ range n, f u := by
    intro f
    refine sum_bij' (fun i _ => l.getD i 0) (fun u _ => l.idxOf u) ?_ ?_ ?_ ?_ ?_
    · exact fun i hi => mem_range.2 (hlt i (mem_range.1 hi)).1
    · exact fun u hu => mem_range.2 (hidx u (mem_range.1 hu)).1
    · exact fun i hi => (hlt i (mem_range.1 hi)).2
    · exact fun u hu => (hidx u (mem_range.1 hu)).2
    · exact fun i hi => rfl
  constructor
  · rintro hp x ⟨u, hu, hx⟩
    have := hp (fun i => x (l.getD i 0)) ⟨l.idxOf u, (hidx u hu).1, by rw [(hidx u hu).2]; exact hx⟩
    rw [hsum fun i => ∑ j ∈ range n, x i * M i (l.getD j 0) * x (l.getD j 0)] at this
    rw [sum_congr rfl fun i _ => hsum fun j => x i * M i j * x j] at this
    exact this
  · rintro hp x ⟨i, hi, hx⟩
    have := hp (fun u => x (l.idxOf u)) ⟨l.getD i 0, (hlt i hi).1, by rw [(hlt i hi).2]; exact hx⟩
    rw [← hsum fun u => ∑ v ∈ range n, x (l.idxOf u) * M u v * x (l.idxOf v)] at this
    rw [sum_congr rfl fun i hi => ?_] at this
    · exact this
    · rw [← hsum fun v => x (l.idxOf (l.getD i 0)) * M (l.getD i 0) v * x (l.idxOf v)]
      exact sum_congr rfl fun j hj => by rw [(hlt i (mem_range.1 hi)).2, (hlt j (mem_range.1 hj)).2]

theorem cholLoop_accepts (P : Pattern sz sp) {path : List (List Nat)} (hp : IsPath sz sp path)
    (hne : sz ≠ []) {w : Workspace} (hw : workspaceInit path sz = .ok w) (W : WsOK sz sp w)
    {llt : Nat → (Nat → Nat → R) → Option (Nat → Nat → R)} (hllt : LltContract llt)
    (hcomp : LltComplete llt) {S : Store R}
    (hpd : PosDef sz.sum fun i j => ent sz sp S (max i j) (min i j)) :
    ∀ m, m ≤ sz.length → ∃ S', cholLoop llt w S m = .ok (some S')
  | 0, _ => ⟨S, rfl⟩
  | m + 1, hm => by
    obtain ⟨S', h⟩ := cholLoop_accepts P hp hne hw W hllt hcomp hpd m (by omega)
    rw [cholLoop, h]
    simp only [Outcome.bind]
    unfold cholStep
    simp only [W.size_eq, W.sep_eq]
    by_cases hn : sz.getD m 0 = 0
    · rw [if_pos hn]; exact ⟨_, rfl⟩
    rw [if_neg hn]
    obtain ⟨F, f1, f2, f3, f4⟩ := cholLoop_facts P hp hne hw W hllt (by omega) h
    have hle := start_le sz m
    have hmL : m < sz.length := by omega
    have hblk : PosDef (sz.getD m 0) fun i j => diagOf S' m (max i j) (min i j) := by
      rintro x ⟨i, hi, hx⟩
      have hsum : start sz m + sz.getD m 0 ≤ sz.sum := by
        rw [← start_succ' hmL]; exact start_le sz _
      let z : Nat → R := fun v => if start sz m ≤ v ∧ v < start sz m + sz.getD m 0 then x (v - start sz m) else 0
      have hz0 : ∀ v, v < start sz m → z v = 0 := fun v hv => if_neg (by omega)
      have hz1 : ∀ r, r < sz.getD m 0 → z (start sz m + r) = x r := by
        intro r hr
        simp only [z]
        rw [if_pos (by omega), Nat.add_sub_cancel_left]
      have hz2 : ∀ v, start sz m + sz.getD m 0 ≤ v → z v = 0 := fun v hv => if_neg (by omega)
      have key := schur_pos hle (L := F) (A := fun i j => ent sz sp S' (max i j) (min i j)) hpd
        (fun i j _ _ => by rw [max_comm, min_comm]) (fun i j _ _ => by rw [max_comm, min_comm]) f1 f2
        (fun r q h1 h2 h3 => by rw [max_eq_left h2, min_eq_right h2]; exact f4 r q h2 h3 h1)
        (fun r q h1 h2 h3 => by rw [max_eq_left h2, min_eq_right h2]; exact f3 r q h2 h3 h1)
        z hz0 ⟨start sz m + i, by omega, by rw [hz1 i hi]; exact hx⟩
      have cut : ∀ f : Nat → R, (∀ v, v < start sz m → f v = 0) →
          (∀ v, start sz m + sz.getD m 0 ≤ v → f v = 0) →
          ∑ v ∈ range sz.sum, f v = ∑ r ∈ range (sz.getD m 0), f (start sz m + r) := by
        intro f h1 h2
        have e : ∑ r ∈ range (sz.getD m 0), f (start sz m + r) =
            ∑ v ∈ Ico (start sz m) (start sz m + sz.getD m 0), f v := by
          rw [sum_Ico_eq_sum_range, Nat.add_sub_cancel_left]
        rw [e]
        symm
        apply sum_subset
        · intro v hv
          have := mem_Ico.1 hv
          exact mem_range.2 (by omega)
        · intro v _ hv
          rcases Nat.lt_or_ge v (start sz m) with h' | h'
          · exact h1 v h'
          · apply h2
            by_contra hc
            exact hv (mem_Ico.2 ⟨h', by omega⟩)
      rw [cut _ (fun v hv => by simp [hz0 v hv]) (fun v hv => by simp [hz2 v hv])] at key
      have inner : ∀ r, r < sz.getD m 0 →
          ∑ j ∈ range sz.sum, z (start sz m + r) *
            ent sz sp S' (max (start sz m + r) j) (min (start sz m + r) j) * z j =
          ∑ c ∈ range (sz.getD m 0), x r * diagOf S' m (max r c) (min r c) * x c := by
        intro r hr
        rw [cut _ (fun v hv => by simp [hz0 v hv]) (fun v hv => by simp [hz2 v hv])]
        refine sum_congr rfl fun c hc => ?_
        have hc' := mem_range.1 hc
        rw [hz1 r hr, hz1 c hc', show max (start sz m + r) (start sz m + c) = start sz m + max r c by omega,
          show min (start sz m + r) (start sz m + c) = start sz m + min r c by omega]
        congr 2
        unfold ent
        rw [full_diag (inBlock_add hmL (by omega)) (inBlock_add hmL (by omega)), Nat.add_sub_cancel_left,
          Nat.add_sub_cancel_left]
        rfl
      rw [sum_congr rfl fun r hr => inner r (mem_range.1 hr)] at key
      exact key
    obtain ⟨L, hL⟩ := hcomp _ _ hblk
    rw [hL]
    simp only
    split_ifs with hsl
    · exact ⟨_, rfl⟩
    · obtain ⟨cells, e1, _⟩ := sepCells_facts P hp hne hw hmL
      rw [e1]
      exact ⟨_, rfl⟩

theorem posDef_of_accepts [IsStrictOrderedRing R] (P : Pattern sz sp) {path : List (List Nat)}
    (hp : IsPath sz sp path) (hne : sz ≠ []) {w : Workspace} (hw : workspaceInit path sz = .ok w)
    (W : WsOK sz sp w) {llt : Nat → (Nat → Nat → R) → Option (Nat → Nat → R)} (hllt : LltContract llt)
    {S S' : Store R} (h : blockCholesky llt w S = .ok (some S')) :
    PosDef sz.sum fun i j => ent sz sp S (max i j) (min i j) := by
  unfold blockCholesky at h
  rw [W.sizes] at h
  obtain ⟨F, f1, f2, _, f4⟩ := cholLoop_facts P hp hne hw W hllt le_rfl h
  rw [start_of_ge _ le_rfl] at f1 f2 f4
  apply posDef_of_factor f1 f2
  intro i j hi hj
  rw [f4 _ _ min_le_max (max_lt hi hj) (lt_of_le_of_lt (min_le_left _ _) hi)]
  rcases le_total i j with hij | hij
  · rw [max_eq_right hij, min_eq_left hij]
    exact sum_congr rfl fun l _ => mul_comm _ _
  · rw [max_eq_left hij, min_eq_right hij]

end Ordered

end Verif.Sup
