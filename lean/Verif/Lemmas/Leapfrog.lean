import Verif.Model.StandardMcmc
import Mathlib.Tactic.Ring
import Mathlib.Tactic.Abel
import Mathlib.Logic.Function.Iterate
/-! Helper lemmas: the leapfrog integrator as a map on phase space. -/
namespace Mocat.Mcmc
open Mocat

variable {K : Type*} {d : ℕ}

/-- One leapfrog step on `(position, momentum)` for a gradient field `g`. -/
noncomputable def lfMap (ε : ℝ) (g : (Fin d → ℝ) → Fin d → ℝ) (z : (Fin d → ℝ) × (Fin d → ℝ)) :
    (Fin d → ℝ) × (Fin d → ℝ) :=
  let pHalf := fun i => z.2 i - ε / 2 * g z.1 i
  let x' := fun i => z.1 i + ε * pHalf i
  (x', fun i => pHalf i - ε / 2 * g x' i)

/-- Momentum flip. -/
def flip (z : (Fin d → ℝ) × (Fin d → ℝ)) : (Fin d → ℝ) × (Fin d → ℝ) := (z.1, fun i => - z.2 i)

theorem flip_flip (z : (Fin d → ℝ) × (Fin d → ℝ)) : flip (flip z) = z := by
  simp [flip]

theorem lf_flip_lf (ε : ℝ) (g : (Fin d → ℝ) → Fin d → ℝ) (z) :
    flip (lfMap ε g (flip (lfMap ε g z))) = z := by
  have hx : (lfMap ε g (flip (lfMap ε g z))).1 = z.1 := by
    funext i
    simp only [lfMap, flip]
    ring
  have hp : ∀ i, (lfMap ε g (flip (lfMap ε g z))).2 i
      = -(lfMap ε g z).2 i - ε / 2 * g (lfMap ε g z).1 i - ε / 2 * g (lfMap ε g (flip (lfMap ε g z))).1 i := by
    intro i; rfl
  refine Prod.ext hx ?_
  funext i
  have hd : (flip (lfMap ε g (flip (lfMap ε g z)))).2 i = -(lfMap ε g (flip (lfMap ε g z))).2 i := rfl
  rw [hd, hp, hx]
  simp only [lfMap]; ring

theorem lf_iter_flip (ε : ℝ) (g : (Fin d → ℝ) → Fin d → ℝ) (L : ℕ) (z) :
    flip ((lfMap ε g)^[L] (flip ((lfMap ε g)^[L] z))) = z := by
  induction L generalizing z with
  | zero => simp [flip_flip]
  | succ L ih =>
    have key : ∀ w, lfMap ε g (flip (lfMap ε g w)) = flip w := by
      intro w
      rw [← flip_flip (lfMap ε g (flip (lfMap ε g w))), lf_flip_lf]
    rw [Function.iterate_succ_apply' (lfMap ε g) L z, Function.iterate_succ_apply, key, ih]

/-- Phase-space coordinates of a leapfrog state. -/
def LfState.phase (s : LfState d) : (Fin d → ℝ) × (Fin d → ℝ) := (s.value, s.momenta)

theorem scan_states_last {α κ : Type*} (f : α → κ → α) (r : α → κ → List (Fin d → ℝ))
    (s : α) (mom : α → (Fin d → ℝ)) (hr : ∀ s k, ∃ l, r s k = l ++ [mom (f s k)]) (keys : List κ) (m0 : Fin d → ℝ)
    (hm : m0 = mom s) :
    let sc := scan (fun s k => (f s k, (f s k, r s k))) s keys
    sc.1 = keys.foldl f s ∧ (∀ dflt, (s :: sc.2.map Prod.fst).getLastD dflt = keys.foldl f s) ∧
    (∀ dflt, (m0 :: (sc.2.map Prod.snd).flatten).getLastD dflt = mom (keys.foldl f s)) := by
  induction keys generalizing s m0 with
  | nil => simp [scan, hm]
  | cons k ks ih =>
    obtain ⟨l, hl⟩ := hr s k
    obtain ⟨h1, h2, h3⟩ := ih (f s k) (mom (f s k)) rfl
    refine ⟨by simpa [scan] using h1, fun dflt => ?_, fun dflt => ?_⟩
    · have := h2 s
      simp only [scan, List.map_cons, List.foldl_cons]
      simpa using h2 dflt
    · have := h3 dflt
      simp only [scan, List.map_cons, List.foldl_cons, List.flatten_cons, hl]
      rw [show m0 :: ((l ++ [mom (f s k)]) ++ ((scan (fun s k => (f s k, (f s k, r s k))) (f s k) ks).2.map Prod.snd).flatten)
        = (m0 :: l) ++ (mom (f s k) :: ((scan (fun s k => (f s k, (f s k, r s k))) (f s k) ks).2.map Prod.snd).flatten) by simp]
      rw [← this]
      rw [List.getLastD_eq_getLast?, List.getLastD_eq_getLast?, List.getLast?_append_of_ne_nil _ (by simp)]

/-- The last row of the leapfrog chain is the fold of the single steps. -/
theorem leapfrog_last (prior lik : ValGrad K d) (s : LfState d) (ε : ℝ) (keys : List K) (T : ℝ) :
    (leapfrog prior lik s ε keys T).last s
      = keys.foldl (fun s k => (leapfrogStep prior lik ε T s k).1) s := by
  have h := scan_states_last (fun s k => (leapfrogStep prior lik ε T s k).1)
    (fun s k => (leapfrogStep prior lik ε T s k).2.2) s LfState.momenta
    (fun s k => ⟨[fun i => s.momenta i - ε / 2 * s.gradPotential i], rfl⟩) keys s.momenta rfl
  obtain ⟨-, h2, h3⟩ := h
  have e : leapfrogStep prior lik ε T = (fun s k => ((leapfrogStep prior lik ε T s k).1,
    ((leapfrogStep prior lik ε T s k).1, (leapfrogStep prior lik ε T s k).2.2))) := by
    funext s k; rfl
  have h2' := h2 s
  have h3' := h3 s.momenta
  simp only [LfChain.last, leapfrog]
  rw [e]
  rw [h2', h3']

end Mocat.Mcmc
