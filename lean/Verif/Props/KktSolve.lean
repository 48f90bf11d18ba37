import Verif.Lemmas.KktSolve
import Verif.Props.BlockFactor
import Verif.Props.Assembler

/-!
# C21: solving through the permuted factor
-/

namespace Verif.Sup

open Finset Spec Clique Verif.Dense Dense.Spec

variable {R : Type} [Field R] [LinearOrder R]

/-- **C21 (wrong length).** A right-hand side whose number of rows is not the dimension of the system
is rejected by an exception, whatever the state of the solver. -/
theorem C21_wrong_length (qr : Nat → (Nat → Nat → R) → (Nat → R) → Nat → R) (s : Solver R) (rows : Nat)
    (b : Nat → R) (h : rows ≠ s.k.data.N) : s.solveInPlace qr rows b = .throws := by
  unfold Solver.solveInPlace
  rw [if_pos h]

section

variable [IsStrictOrderedRing R]

/-- What a successful `Factor` provides: a matrix `M` in permuted order, solved by the factor. -/
theorem factor_facts {cs duals : List (List Nat)} (hnd : ∀ c ∈ cs, c.Nodup)
    (hlen : duals.length = cs.length) {k : Kkt} (hk : kktInit cs duals = .ok k) {n : Nat}
    (hall : ∀ v, v < n ↔ ∃ c ∈ cs, v ∈ c)
    {llt : Nat → (Nat → Nat → R) → Option (Nat → Nat → R)} (hllt : LltContract llt)
    {s s' : Solver R} (hsk : s.k = k)
    (hw : workspaceInit k.data.cliques k.data.supernodeSize = .ok s.w) (hqr : s.useQr = false)
    (hf : s.factor llt = .ok (some s')) (hreg : ∀ F, s'.fact = some (.ldlt F) → F.reg = false)
    (qr : Nat → (Nat → Nat → R) → (Nat → R) → Nat → R) :
    k.data.N = n ∧ k.pt.Perm (List.range n) ∧ s'.k = k ∧ s'.iters = s.iters ∧ s'.w = s.w ∧
      (0 < s.iters → s'.saved = some s.dense) ∧
      ∃ (M : Nat → Nat → R) (f : Fact R), s'.fact = some f ∧ (∀ K, f ≠ .qr K) ∧
        (∀ i j, i < n → j < n → denseSym s.w s.mat i j = .ok (M i j)) ∧
        ∀ b i, i < n → ∑ j ∈ range n, M i j * f.apply qr s.w b j = b i := by
  obtain ⟨sp, P, hp, hne, hN, hptn, hptl, hocc, hdu, hcs⟩ := kkt_pattern hnd hlen hk
  have hmem : ∀ v, v ∈ k.pt ↔ v ∈ List.range n := by
    intro v
    rw [← hocc v, ← hall v, List.mem_range]
  have hperm : k.pt.Perm (List.range n) :=
    (List.perm_ext_iff_of_nodup hptn List.nodup_range).2 hmem
  have hNn : k.data.N = n := by
    rw [← hptl, hperm.length_eq, List.length_range]
  have hsum : k.data.supernodeSize.sum = n := by rw [← hN, hNn]
  obtain ⟨w', hw', W⟩ := workspaceInit_spec P hne hp.1 hp.2
  rw [hw] at hw'
  simp only [Outcome.ok.injEq] at hw'
  subst hw'
  have hdense : ∀ i j, i < n → j < n → denseSym s.w s.mat i j =
      .ok (ent k.data.supernodeSize sp s.mat (max i j) (min i j)) := by
    intro i j hi hj
    exact denseSym_eq P hp hne hw s.mat (by omega) (by omega)
  have hbase : s.save.k = k ∧ s.save.iters = s.iters ∧ s.save.w = s.w ∧ s.save.mat = s.mat ∧
      s.save.useQr = false ∧ (0 < s.iters → s.save.saved = some s.dense) := by
    unfold Solver.save
    split_ifs with h
    · exact ⟨hsk, rfl, rfl, rfl, hqr, fun _ => rfl⟩
    · exact ⟨hsk, rfl, rfl, rfl, hqr, fun h' => absurd (.inl h') h⟩
  unfold Solver.factor at hf
  obtain ⟨b1, b2, b3, b4, b5, b6⟩ := hbase
  generalize s.save = s1 at hf b1 b2 b3 b4 b5 b6
  unfold Solver.factorCore at hf
  rw [if_neg (by simp [b5])] at hf
  refine ⟨hNn, hperm, ?_⟩
  split_ifs at hf with hd
  · rw [b3, b4] at hf
    cases hc : blockCholesky llt s.w s.mat with
    | throws => rw [hc] at hf; simp [Outcome.bind] at hf
    | ub => rw [hc] at hf; simp [Outcome.bind] at hf
    | diverges => rw [hc] at hf; simp [Outcome.bind] at hf
    | ok o =>
      rw [hc] at hf
      cases o with
      | none => simp [Outcome.bind] at hf
      | some S =>
        simp only [Outcome.bind, Outcome.ok.injEq, Option.some.injEq] at hf
        subst hf
        refine ⟨b1, b2, rfl, b6, _, _, rfl, (by simp), hdense, ?_⟩
        intro b i hi
        have := cholesky_main P hp hne hw W hllt hc b i (by omega)
        rw [hsum] at this
        exact this
  · rw [b3, b4] at hf
    cases hc : blockLdlt s.w s.mat with
    | throws => rw [hc] at hf; simp [Outcome.bind] at hf
    | ub => rw [hc] at hf; simp [Outcome.bind] at hf
    | diverges => rw [hc] at hf; simp [Outcome.bind] at hf
    | ok F =>
      rw [hc] at hf
      simp only [Outcome.bind, Outcome.ok.injEq, Option.some.injEq] at hf
      subst hf
      refine ⟨b1, b2, rfl, b6, _, _, rfl, (by simp), hdense, ?_⟩
      intro b i hi
      have := ldlt_main P hp hne hw W hc (hreg F rfl) b i (by omega)
      rw [hsum] at this
      exact this

/-- **C21 (solution and refinement).** Let `K` be the matrix in the original variable order. After a
successful factorisation of a system in which every unknown below `n` occurs, `SolveInPlace` returns,
for every right-hand side and every number of refinement rounds, an `x` with `K x = b` in the original
order, and this `x` is the one obtained without refinement. -/
theorem C21_solves (cs duals : List (List Nat)) (hnd : ∀ c ∈ cs, c.Nodup)
    (hlen : duals.length = cs.length) (k : Kkt) (hk : kktInit cs duals = .ok k) (n : Nat)
    (hall : ∀ v, v < n ↔ ∃ c ∈ cs, v ∈ c)
    (llt : Nat → (Nat → Nat → R) → Option (Nat → Nat → R)) (hllt : LltContract llt)
    (qr : Nat → (Nat → Nat → R) → (Nat → R) → Nat → R)
    (s s' : Solver R) (hsk : s.k = k)
    (hw : workspaceInit k.data.cliques k.data.supernodeSize = .ok s.w) (hqr : s.useQr = false)
    (hf : s.factor llt = .ok (some s')) (hreg : ∀ F, s'.fact = some (.ldlt F) → F.reg = false) :
    ∃ K : Nat → Nat → R, (∀ u v, u < n → v < n → kktMatrix k s.w s.mat u v = .ok (K u v)) ∧
      ∀ b : Nat → R, ∃ x x0 : Nat → R, s'.solveInPlace qr n b = .ok x ∧
        (∀ u, u < n → ∑ v ∈ range n, K u v * x v = b u) ∧
        { s' with iters := 0 }.solveInPlace qr n b = .ok x0 ∧ ∀ u, u < n → x u = x0 u := by
  obtain ⟨hN, hpt, f1, f2, f3, f4, M, f, f5, f6, f7, f8⟩ :=
    factor_facts hnd hlen hk hall hllt hsk hw hqr hf hreg qr
  have hK : ∀ u v, u < n → v < n →
      kktMatrix k s.w s.mat u v = .ok (M (k.pt.idxOf u) (k.pt.idxOf v)) := by
    intro u v hu hv
    exact f7 _ _ (idx_lt hpt hu) (idx_lt hpt hv)
  refine ⟨fun u v => M (k.pt.idxOf u) (k.pt.idxOf v), hK, ?_⟩
  intro b
  have hall' : (k.pt.all fun v => decide (v < n)) = true := by
    rw [List.all_eq_true]
    intro v hv
    simpa using hpt.mem_iff.1 hv
  have hx0 : ∀ {u}, u < n → ∑ v ∈ range n, M (k.pt.idxOf u) (k.pt.idxOf v) *
      unpermute k (f.apply qr s.w (permute k b)) v = b u := fun hu =>
    permuted_solve (K := fun u v => M (k.pt.idxOf u) (k.pt.idxOf v)) hpt f8 (fun _ _ _ _ => rfl) b hu
  have solve0 : { s' with iters := 0 }.solveInPlace qr n b =
      .ok (unpermute k (f.apply qr s.w (permute k b))) := by
    unfold Solver.solveInPlace
    simp only [f1, hN, f3, f5, hall']
    cases f with
    | qr K => exact absurd rfl (f6 K)
    | chol S => simp
    | ldlt F => simp
  rcases Nat.eq_zero_or_pos s.iters with h0 | hpos
  · have e : { s' with iters := 0 } = s' := by
      cases s'
      simp only at f2
      rw [Solver.mk.injEq]
      exact ⟨rfl, rfl, rfl, rfl, by omega, rfl, rfl⟩
    rw [e] at solve0
    rw [e]
    exact ⟨_, _, solve0, fun u hu => hx0 hu, solve0, fun _ _ => rfl⟩
  · have hdense : ∀ u v, u < n → v < n → s.dense u v = M (k.pt.idxOf u) (k.pt.idxOf v) := by
      intro u v hu hv
      unfold Solver.dense
      rw [hsk, hK u v hu hv]
      rfl
    have hx0' : ∀ u, u < n →
        ∑ v ∈ range n, s.dense u v * unpermute k (f.apply qr s.w (permute k b)) v = b u :=
      fun u hu => permuted_solve hpt f8 hdense b hu
    obtain ⟨m, hm⟩ : ∃ m, s.iters = m + 1 := ⟨s.iters - 1, by omega⟩
    have hr := refine_exact hpt hN f8 b (m + 1) _ hx0'
    have solve1 : s'.solveInPlace qr n b =
        .ok (refine k s.dense (f.apply qr s.w) b (m + 1) (unpermute k (f.apply qr s.w (permute k b)))) := by
      unfold Solver.solveInPlace
      simp only [f1, hN, f3, f5, hall', f2, hm, f4 hpos]
      cases f with
      | qr K => exact absurd rfl (f6 K)
      | chol S => simp
      | ldlt F => simp
    refine ⟨_, _, solve1, ?_, solve0, hr⟩
    intro u hu
    rw [← hx0 hu]
    exact Finset.sum_congr rfl fun v hv => by rw [hr v (mem_range.1 hv)]

/-- **C18 and C21 together.** Assemble, factor, solve: if assembly uses no shifted block (F2), every
unknown below `n` occurs (F3) and no pivot is replaced (F22), then `x` solves the system whose matrix
is the sum of the constraint matrices, in the original variable order. -/
theorem C21_assembled_system (cs duals : List (List Nat)) (hnd : ∀ c ∈ cs, c.Nodup)
    (hlen : duals.length = cs.length)
    (hdual : ∀ (i : Nat) (c dv : List Nat), cs[i]? = some c → duals[i]? = some dv → ∃ p, c = p ++ dv)
    (k : Kkt) (hk : kktInit cs duals = .ok k) (hgood : NoShift k) (n : Nat)
    (hall : ∀ v, v < n ↔ ∃ c ∈ cs, v ∈ c)
    (llt : Nat → (Nat → Nat → R) → Option (Nat → Nat → R)) (hllt : LltContract llt)
    (qr : Nat → (Nat → Nat → R) → (Nat → R) → Nat → R) (G : Nat → Nat → Nat → R) (st : Store R)
    (iters : Nat) :
    ∃ w st', assemble k G st = .ok (w, st') ∧ ∀ s',
      (Solver.mk k w st' false iters none none).factor llt = .ok (some s') →
      (∀ F, s'.fact = some (.ldlt F) → F.reg = false) →
      ∀ b : Nat → R, ∃ x, s'.solveInPlace qr n b = .ok x ∧
        ∀ u, u < n → ∑ v ∈ range n, total cs G u v * x v = b u := by
  obtain ⟨w, st', ha, hm⟩ := C18_assembly_partial cs duals hnd hlen hdual k hk hgood G st
  refine ⟨w, st', ha, fun s' hf hreg b => ?_⟩
  have hw : workspaceInit k.data.cliques k.data.supernodeSize = .ok w := by
    unfold assemble at ha
    cases h : workspaceInit k.data.cliques k.data.supernodeSize with
    | throws => rw [h] at ha; simp [Outcome.bind] at ha
    | ub => rw [h] at ha; simp [Outcome.bind] at ha
    | diverges => rw [h] at ha; simp [Outcome.bind] at ha
    | ok w1 =>
      rw [h] at ha
      simp only [Outcome.bind] at ha
      split at ha <;> simp at ha
      split at ha <;> simp at ha
      rw [ha.1]
  obtain ⟨K, h1, h2⟩ := C21_solves cs duals hnd hlen k hk n hall llt hllt qr _ s' rfl hw rfl hf hreg
  obtain ⟨x, _, h3, h4, _⟩ := h2 b
  refine ⟨x, h3, fun u hu => ?_⟩
  rw [← h4 u hu]
  refine Finset.sum_congr rfl fun v hv => ?_
  have e1 := h1 u v hu (mem_range.1 hv)
  have e2 := hm u v ((hall u).1 hu) ((hall v).1 (mem_range.1 hv))
  simp only [e2, Outcome.ok.injEq] at e1
  rw [e1]

end

/-- **C21 (QR variant).** With the QR factorisation the result solves the system in the original order
whenever it is solvable. -/
theorem C21_qr (k : Kkt) (n : Nat) (hN : k.data.N = n)
    (llt : Nat → (Nat → Nat → R) → Option (Nat → Nat → R))
    (qr : Nat → (Nat → Nat → R) → (Nat → R) → Nat → R) (hqrc : QrContract qr)
    (s s' : Solver R) (hsk : s.k = k) (hwN : s.w.N = n) (hqr : s.useQr = true)
    (hf : s.factor llt = .ok (some s')) (K : Nat → Nat → R)
    (hK : ∀ u v, u < n → v < n → kktMatrix k s.w s.mat u v = .ok (K u v)) (b : Nat → R)
    (hsol : ∃ x : Nat → R, ∀ u, u < n → ∑ v ∈ range n, K u v * x v = b u) :
    ∃ x, s'.solveInPlace qr n b = .ok x ∧ ∀ u, u < n → ∑ v ∈ range n, K u v * x v = b u := by
  have hd : ∀ u v, u < n → v < n → s.dense u v = K u v := by
    intro u v hu hv
    unfold Solver.dense
    rw [hsk, hK u v hu hv]; rfl
  unfold Solver.factor Solver.save at hf
  rw [if_pos (.inr hqr)] at hf
  unfold Solver.factorCore at hf
  simp only [hqr, if_true, Outcome.ok.injEq, Option.some.injEq] at hf
  subst hf
  refine ⟨qr n s.dense b, ?_, ?_⟩
  · unfold Solver.solveInPlace
    simp only [hsk, hN, hwN]
    simp
  · intro u hu
    have := hqrc n s.dense b ?_ u hu
    · rw [← this]
      exact Finset.sum_congr rfl fun v hv => by rw [hd u v hu (mem_range.1 hv)]
    · obtain ⟨x, hx⟩ := hsol
      refine ⟨x, fun i hi => ?_⟩
      rw [← hx i hi]
      exact Finset.sum_congr rfl fun v hv => by rw [hd i v hi (mem_range.1 hv)]

/-- **C21, late change.** If no refinement was requested when the matrix was factored, requesting it
afterwards makes every solve use the empty saved matrix. -/
theorem C21_late_refinement_violated (llt : Nat → (Nat → Nat → R) → Option (Nat → Nat → R))
    (qr : Nat → (Nat → Nat → R) → (Nat → R) → Nat → R) (s s' : Solver R) (h0 : s.iters = 0)
    (hqr : s.useQr = false) (hs : s.saved = none) (hf : s.factor llt = .ok (some s')) (m : Nat)
    (b : Nat → R) : { s' with iters := m + 1 }.solveInPlace qr s.k.data.N b = .ub := by
  unfold Solver.factor Solver.save at hf
  rw [if_neg (by simp [h0, hqr])] at hf
  unfold Solver.factorCore at hf
  rw [if_neg (by simp [hqr])] at hf
  split_ifs at hf with hd
  · cases hc : blockCholesky llt s.w s.mat with
    | throws => rw [hc] at hf; simp [Outcome.bind] at hf
    | ub => rw [hc] at hf; simp [Outcome.bind] at hf
    | diverges => rw [hc] at hf; simp [Outcome.bind] at hf
    | ok o =>
      rw [hc] at hf
      cases o with
      | none => simp [Outcome.bind] at hf
      | some S =>
        simp only [Outcome.bind, Outcome.ok.injEq, Option.some.injEq] at hf
        subst hf
        simp [Solver.solveInPlace, hs]
  · cases hc : blockLdlt s.w s.mat with
    | throws => rw [hc] at hf; simp [Outcome.bind] at hf
    | ub => rw [hc] at hf; simp [Outcome.bind] at hf
    | diverges => rw [hc] at hf; simp [Outcome.bind] at hf
    | ok F =>
      rw [hc] at hf
      simp only [Outcome.bind, Outcome.ok.injEq, Option.some.injEq] at hf
      subst hf
      simp [Solver.solveInPlace, hs]

/-! ### Concrete cases -/

/-- Construct, assemble, factor, solve. -/
def exRun (cs duals : List (List Nat)) (G : Nat → Nat → Nat → Rat) (iters rows : Nat) (b : Nat → Rat) :
    Outcome (Option (List Rat)) :=
  (kktInit cs duals).bind fun k => (assemble k G (fun _ => 7)).bind fun p =>
  ((Solver.mk k p.1 p.2 false iters none none).factor exLlt).bind fun o =>
  match o with
  | none => .ok none
  | some s => (s.solveInPlace (fun _ _ b => b) rows b).bind fun x => .ok (some ((List.range rows).map x))

/-- Cholesky with one round of refinement. -/
example : exRun [[2, 0], [0, 1]] [[], []]
    (fun e i j => if i = j then (if i = 1 then 4 else if e = 0 then 2 else 1) else 2) 1 3
      (fun u => (u : Rat)) = .ok (some [-5 / 4, 7 / 8, 9 / 4]) := by decide +kernel

/-- LDLᵀ: an equality constraint with multiplier 1. -/
example : exRun [[2, 0], [0, 1]] [[], [1]]
    (fun e i j => if i = 1 ∧ j = 1 ∧ e = 1 then 0 else if i = j then 4 else 1) 0 3
      (fun u => (u : Rat)) = .ok (some [1, -33 / 4, 1 / 4]) := by decide +kernel

/-- The remaining hypotheses of `C21_assembled_system` for these systems. -/
example : (∀ v, v < 3 ↔ ∃ c ∈ [[2, 0], [0, 1]], v ∈ c) ∧
    ∃ k, kktInit [[2, 0], [0, 1]] [[], [1]] = .ok k ∧ NoShift k := by
  refine ⟨?_, _, rfl, noShift_of_bounded (n := 2) (by decide +kernel) (by decide +kernel)⟩
  intro v
  simp
  omega

/-- **C21, reachable undefined behaviour.** Two constraints on the same variables together with an
equality constraint: the symbolic analysis creates an empty supernode, and `Factor` accesses an entry
of a `0 × 0` block (F21). -/
theorem C21_duplicate_clique_violated :
    ∃ k, kktInit [[0, 1], [0, 1], [1, 2]] [[], [], [2]] = .ok k ∧ NoShift k ∧
      ∃ w st, assemble k (fun e i j => if i = 1 ∧ j = 1 ∧ e = 2 then (0 : Rat) else if i = j then 4 else 1)
        (fun _ => 0) = .ok (w, st) ∧
      (Solver.mk k w st false 0 none none).factor exLlt = .ub :=
  ⟨_, rfl, noShift_of_bounded (n := 3) (by decide +kernel) (by decide +kernel), _, _, rfl, rfl⟩

end Verif.Sup
