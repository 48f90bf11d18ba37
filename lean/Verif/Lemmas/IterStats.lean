import Verif.Spec.IterStats
import Verif.Lemmas.Solve

/-!
# Lemmas on the statistics of a solve
-/

namespace Verif.IterStats

open SolveLoop SolveLoop.Spec Spec

variable {R : Type} [Field R] [LinearOrder R]
variable {sqrt : R → R} {cfg : Config R} {q : Bool} {o : Oracle R}

/-- The statistics hold the history `l` of a run: as many iterations as it has entries, unless there
are none, and the entries. -/
def Holds (st : Stats R) (l : List R) : Prop :=
  (l ≠ [] → st.numIter = some l.length) ∧ ∀ j, (h : j < l.length) → st.sqrtInvMu.lookup j = some l[j]

/-- The statistics after one more iteration. -/
theorem Holds.push {st : Stats R} {l : List R} (h : Holds st l) (k : R) :
    Holds { st with numIter := some (l.length + 1), sqrtInvMu := (l.length, k) :: st.sqrtInvMu }
      (l ++ [k]) := by
  refine ⟨fun _ => by simp, fun j hj => ?_⟩
  simp only [List.length_append, List.length_cons, List.length_nil] at hj
  by_cases he : j = l.length
  · subst he
    simp [List.lookup_cons]
  · have hj' : j < l.length := by omega
    have : (j == l.length) = false := by simpa using he
    simp only [List.lookup_cons, this, List.getElem_append_left hj']
    exact h.2 j hj'

/-- Invariant of the loop: `i` iterations completed. -/
def Inv (i : Nat) (s : State R) : Prop :=
  (parameters s.trace).length = i ∧ Holds s.stats (parameters s.trace)

theorem holds_loop (hm : ¬ (cfg.mode = 1 ∧ o.factorOk 0 = false)) {st : Stats R} {c : Ctl}
    {s : State R} (h : loop sqrt cfg q o cfg.maxIter.toNat 0 (start cfg st) = .ok (c, s)) :
    Holds s.stats (parameters s.trace) := by
  refine loop_inv (N := cfg.maxIter.toNat) (I := Inv)
    (Q := fun _ s => Holds s.stats (parameters s.trace)) ?_ (fun s h => h.2)
    cfg.maxIter.toNat 0 _ c s (by omega) ⟨rfl, by simp [Holds, parameters, parametersRev, start]⟩ h
  intro i s c s' _ hI hb
  rcases body_ok hb with ⟨rfl, -, -, rfl⟩ | ⟨-, s1, hr, h1⟩
  · exact ⟨fun h => by simp at h, fun _ => hI.2⟩
  have hs1 : s1.trace = s.trace ∧ s1.stats.numIter = s.stats.numIter ∧
      s1.stats.sqrtInvMu = s.stats.sqrtInvMu := by
    unfold rescale at hr
    split_ifs at hr with h2
    · simp only [bind_eq_ok, readVar_eq, Outcome.pure_eq, Outcome.ok.injEq] at hr
      obtain ⟨b, -, c, -, rfl⟩ := hr
      exact ⟨rfl, rfl, rfl⟩
    · simp only [bind_eq_ok, readVar_eq, Outcome.pure_eq, Outcome.ok.injEq] at hr
      obtain ⟨b, -, c, -, rfl⟩ := hr
      exact ⟨rfl, rfl, rfl⟩
    · simp only [Outcome.ok.injEq] at hr
      subst hr
      exact ⟨rfl, rfl, rfl⟩
  have hH : Holds s1.stats (parameters s1.trace) := by
    unfold Holds
    rw [hs1.1, hs1.2.1, hs1.2.2]
    exact hI.2
  have hlen : (parameters s1.trace).length = i := by rw [hs1.1]; exact hI.1
  rcases h1 with ⟨hf, rfl, hm', -, -⟩ | ⟨-, -, rfl, rfl⟩ | ⟨-, rfl, -, rfl⟩ | ⟨-, s2, hc, hfin⟩
  · exact absurd ⟨hm', hf⟩ hm
  · refine ⟨fun h => by simp at h, fun _ => ?_⟩
    exact hH
  · refine ⟨fun h => by simp at h, fun _ => ?_⟩
    exact hH
  · have hs2 : s2.trace = .factor i true :: s1.trace ∧ s2.stats = s1.stats := by
      unfold chooseMu at hc
      split_ifs at hc
      · simp only [Option.map_eq_some_iff] at hc
        obtain ⟨t, -, rfl⟩ := hc
        split_ifs <;> exact ⟨rfl, rfl⟩
      · simp only [Option.some.injEq] at hc
        subst hc
        exact ⟨rfl, rfl⟩
      · simp only [Option.some.injEq] at hc
        subst hc
        exact ⟨rfl, rfl⟩
    have hcomp : Inv (i + 1) (completed cfg sqrt q o i (updateMu cfg i s) s2) := by
      have hp : parameters (completed cfg sqrt q o i (updateMu cfg i s) s2).trace =
          parameters s1.trace ++ [applyLimits s2.k (kMin sqrt cfg) s2.kMax] := by
        unfold completed parameters
        simp only [hs2.1]
        split_ifs <;> simp [parametersRev]
      refine ⟨by rw [hp]; simp [hlen], ?_⟩
      rw [hp]
      have := hH.push (applyLimits s2.k (kMin sqrt cfg) s2.kMax)
      rw [hlen] at this
      unfold completed
      simp only [hs2.2]
      exact this
    obtain ⟨-, -, -, h4⟩ := finish_ok hfin
    rcases h4 with ⟨rfl, rfl⟩ | ⟨rfl, rfl, -, -⟩
    · exact ⟨fun _ => hcomp, fun h => absurd rfl h⟩
    · exact ⟨fun h => by simp at h, fun _ => hcomp.2⟩

end Verif.IterStats
