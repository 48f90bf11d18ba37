import Verif.Model.Residuals
import Verif.Spec.Assembler

/-!
# Lemmas about the assembly of right-hand sides
-/

namespace Verif.Sup

open Spec

variable {R : Type}

theorem addVec_spec [AddCommMonoid R] (rows : Nat) (r : Resid R) (c : List Nat) :
    ∀ (cnt : Nat) (s : Resid R), c.Nodup → (∀ k ∈ c, k < rows) →
    ∃ s', addVec rows r c cnt s = .ok s' ∧ s'.wc = s.wc ∧ s'.cQc = s.cQc ∧
      (∀ u, s'.AW u = s.AW u + ventry c (fun j => r.AW (cnt + j)) u) ∧
      (∀ u, s'.AQc u = s.AQc u + ventry c (fun j => r.AQc (cnt + j)) u) := by
  induction c with
  | nil => intro cnt s _ _; exact ⟨s, rfl, rfl, rfl, by simp [ventry], by simp [ventry]⟩
  | cons k ks ih =>
    intro cnt s hnd hb
    rw [List.nodup_cons] at hnd
    obtain ⟨s', h1, h2, h3, h4, h5⟩ := ih (cnt + 1)
      { s with AW := Clique.upd s.AW k (s.AW k + r.AW cnt)
               AQc := Clique.upd s.AQc k (s.AQc k + r.AQc cnt) }
      hnd.2 (fun x hx => hb x (List.mem_cons_of_mem _ hx))
    have key : ∀ (f g : Nat → R) (u : Nat),
        Clique.upd g k (g k + f cnt) u + ventry ks (fun j => f (cnt + 1 + j)) u =
          g u + ventry (k :: ks) (fun j => f (cnt + j)) u := by
      intro f g u
      unfold ventry Clique.upd
      by_cases hu : u = k
      · subst hu
        rw [if_pos rfl, if_neg hnd.1, if_pos (by simp)]
        simp
      · rw [if_neg hu]
        by_cases hm : u ∈ ks
        · rw [if_pos hm, if_pos (List.mem_cons_of_mem _ hm), List.idxOf_cons_ne _ (fun h => hu h.symm)]
          simp only [Nat.succ_eq_add_one]
          rw [show cnt + 1 + ks.idxOf u = cnt + (ks.idxOf u + 1) by omega]
        · rw [if_neg hm, if_neg (by simp [hu, hm])]
    refine ⟨s', ?_, h2, h3, ?_, ?_⟩
    · rw [addVec, if_pos (hb k (by simp))]; exact h1
    · intro u; rw [h4 u]; exact key r.AW s.AW u
    · intro u; rw [h5 u]; exact key r.AQc s.AQc u

theorem residLoop_spec [AddCommMonoid R] (rows : Nat) (r : Nat → Resid R) (cs : List (List Nat)) :
    ∀ (i : Nat) (s : Resid R), (∀ c ∈ cs, c.Nodup) → (∀ c ∈ cs, ∀ k ∈ c, k < rows) →
    ∃ s', residLoop rows r cs i s = .ok s' ∧
      s'.wc = s.wc + ((List.range cs.length).map fun j => (r (i + j)).wc).sum ∧
      s'.cQc = s.cQc + ((List.range cs.length).map fun j => (r (i + j)).cQc).sum ∧
      (∀ u, s'.AW u = s.AW u +
        ((List.range cs.length).map fun j => ventry (cs.getD j []) (r (i + j)).AW u).sum) ∧
      (∀ u, s'.AQc u = s.AQc u +
        ((List.range cs.length).map fun j => ventry (cs.getD j []) (r (i + j)).AQc u).sum) := by
  induction cs with
  | nil => intro i s _ _; exact ⟨s, rfl, by simp, by simp, by simp, by simp⟩
  | cons c cs ih =>
    intro i s hnd hb
    obtain ⟨s1, a1, a2, a3, a4, a5⟩ := addVec_spec rows (r i) c 0
      { s with wc := s.wc + (r i).wc, cQc := s.cQc + (r i).cQc }
      (hnd c (by simp)) (hb c (by simp))
    obtain ⟨s2, b1, b2, b3, b4, b5⟩ := ih (i + 1) s1
      (fun c hc => hnd c (List.mem_cons_of_mem _ hc)) (fun c hc => hb c (List.mem_cons_of_mem _ hc))
    simp only [Nat.zero_add] at a4 a5
    have hr : ∀ (f : Nat → Nat → R), ((List.range (c :: cs).length).map fun j => f j (i + j)).sum =
        f 0 i + ((List.range cs.length).map fun j => f (j + 1) (i + 1 + j)).sum := by
      intro f
      rw [List.length_cons, List.range_succ_eq_map, List.map_cons, List.sum_cons, List.map_map]
      simp only [Nat.add_zero]
      congr 2
      apply List.map_congr_left
      intro j _
      simp only [Function.comp, Nat.succ_eq_add_one]
      rw [show i + (j + 1) = i + 1 + j by omega]
    refine ⟨s2, ?_, ?_, ?_, ?_, ?_⟩
    · rw [residLoop, a1]; exact b1
    · rw [b2, a2, hr (fun _ x => (r x).wc), add_assoc]
    · rw [b3, a3, hr (fun _ x => (r x).cQc), add_assoc]
    · intro u
      rw [b4 u, a4 u, hr (fun j x => ventry ((c :: cs).getD j []) (r x).AW u), add_assoc]
      simp
    · intro u
      rw [b5 u, a5 u, hr (fun j x => ventry ((c :: cs).getD j []) (r x).AQc u), add_assoc]
      simp

theorem kktResidLoop_spec [AddCommMonoid R] (rows : Nat) (cs : List (List Nat)) (order : List Nat)
    (r : Nat → Resid R) (hnd : ∀ c ∈ cs, c.Nodup) (hb : ∀ c ∈ cs, ∀ k ∈ c, k < rows)
    (ho : ∀ i ∈ order, i < cs.length) : ∀ (n : Nat) (s : Resid R), n ≤ order.length →
    ∃ s', kktResidLoop rows cs order r n s = .ok s' ∧
      s'.wc = s.wc + ((order.take n).map fun i => (r i).wc).sum ∧
      (∀ u, s'.AW u = s.AW u +
        ((order.take n).map fun i => ventry (cs.getD i []) (r i).AW u).sum) ∧
      (∀ u, s'.AQc u = s.AQc u +
        ((order.take n).map fun i => ventry (cs.getD i []) (r i).AQc u).sum) := by
  intro n
  induction n with
  | zero => intro s _; exact ⟨s, rfl, by simp, by simp, by simp⟩
  | succ n ih =>
    intro s hn
    have he := List.getElem?_eq_getElem (show n < order.length by omega)
    generalize order[n] = i at he
    have hil := ho i (List.mem_of_getElem? he)
    have hc := List.getElem?_eq_getElem hil
    have hcm := List.mem_of_getElem? hc
    generalize cs[i] = c at hc hcm
    have hgc : cs.getD i [] = c := by rw [List.getD_eq_getElem?_getD, hc]; rfl
    obtain ⟨s1, a1, a2, a3, a4, a5⟩ := addVec_spec rows (r i) c 0
      { s with wc := s.wc + (r i).wc } (hnd c hcm) (hb c hcm)
    obtain ⟨s2, b1, b2, b4, b5⟩ := ih s1 (by omega)
    simp only [Nat.zero_add] at a4 a5
    have hr : ∀ (f : Nat → R), ((order.take (n + 1)).map f).sum =
        ((order.take n).map f).sum + f i := by
      intro f
      rw [List.take_add_one, he, Option.toList_some, List.map_append, List.sum_append]
      simp
    refine ⟨s2, ?_, ?_, ?_, ?_⟩
    · rw [kktResidLoop]; simp only [he, hc]; rw [a1]; exact b1
    · rw [b2, a2, hr, add_assoc, add_comm (r i).wc]
    · intro u; rw [b4 u, a4 u, hr, add_assoc, hgc, add_comm (ventry c _ u)]
    · intro u; rw [b5 u, a5 u, hr, add_assoc, hgc, add_comm (ventry c _ u)]

end Verif.Sup
