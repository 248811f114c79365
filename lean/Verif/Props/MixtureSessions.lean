import Verif.Model.MixtureSessions
import Verif.Props.ToyExamples
/-!
# C134: a Gaussian mixture whose attributes are assigned
-/
namespace Mocat.Props
open Matrix Mocat Mocat.ToyExamples Mocat.MixtureSessions

variable {n d : ℕ}

/-! ## Specification -/

/-- The attributes after a history. -/
def mixtureAfter (mx : Mixture n d) : List (MixtureSessions.Event n d) → Mixture n d
  | [] => mx
  | .means m :: h => mixtureAfter ⟨m, mx.covariances, mx.weights⟩ h
  | .weights w :: h => mixtureAfter ⟨mx.means, mx.covariances, w⟩ h
  | .covariances c :: h => mixtureAfter ⟨mx.means, c, mx.weights⟩ h
  | .commonCovariance c :: h => mixtureAfter ⟨mx.means, fun _ => c, mx.weights⟩ h
  | .defaultCovariances :: h => mixtureAfter ⟨mx.means, fun _ => 1, mx.weights⟩ h
  | _ :: h => mixtureAfter mx h

/-- The shape of the leading axes of the argument of an evaluation. -/
def evalShape : MixtureSessions.Event n d → Option (List ℕ)
  | .dens s _ => some s
  | .potential s _ => some s
  | .gradient _ => some []
  | _ => none

/-- What an evaluation should give for a mixture: its density, minus the logarithm of that, or the derivative. -/
noncomputable def mixtureValue (chol : Matrix (Fin d) (Fin d) ℝ → Matrix (Fin d) (Fin d) ℝ) (mx : Mixture n d) : MixtureSessions.Event n d → Option (MixtureSessions.Value d)
  | .dens _ x => some (.real (dens chol mx x))
  | .potential _ x => some (.real (-Real.log (dens chol mx x)))
  | .gradient x => some (.grad (fderiv ℝ (fun z => -Real.log (dens chol mx z)) x))
  | _ => none

/-! ## Proofs -/

section
variable (chol : Matrix (Fin d) (Fin d) ℝ → Matrix (Fin d) (Fin d) ℝ)

theorem mix_after_append (o : Obj n d) (h1 h2 : List (MixtureSessions.Event n d)) : MixtureSessions.after chol o (h1 ++ h2) = MixtureSessions.after chol (MixtureSessions.after chol o h1) h2 := by
  induction h1 generalizing o with
  | nil => rfl
  | cons ev h1 ih => exact ih _

theorem run_mixture (o : Obj n d) (s : List ℕ) : (o.run s).2.mixture = o.mixture := by
  unfold Obj.run
  split <;> rfl

theorem mix_after_mixture (o : Obj n d) (h : List (MixtureSessions.Event n d)) : (MixtureSessions.after chol o h).mixture = mixtureAfter o.mixture h := by
  induction h generalizing o with
  | nil => rfl
  | cons ev h ih =>
    rw [MixtureSessions.after, ih]
    cases ev <;> simp only [MixtureSessions.step, assigned, mixtureAfter, run_mixture]

theorem run_code_keep (o : Obj n d) {s : List ℕ} (s' : List ℕ) {c : Mixture n d} (hc : o.code s = some c) : (o.run s').2.code s = some c := by
  unfold Obj.run
  split
  · exact hc
  · rename_i hs
    refine (Function.update_of_ne ?_ _ _).trans hc
    rintro rfl
    rw [hc] at hs
    cases hs

theorem run_code_none (o : Obj n d) {s s' : List ℕ} (hs : s ≠ s') (hc : o.code s = none) : (o.run s').2.code s = none := by
  unfold Obj.run
  split
  · exact hc
  · exact (Function.update_of_ne hs _ _).trans hc

theorem run_code_self (o : Obj n d) {s : List ℕ} (hc : o.code s = none) : (o.run s).2.code s = some o.mixture := by
  unfold Obj.run
  simp only [hc]
  exact Function.update_self _ _ _

theorem mix_code_keep (o : Obj n d) (h : List (MixtureSessions.Event n d)) {s : List ℕ} {c : Mixture n d} (hc : o.code s = some c) : (MixtureSessions.after chol o h).code s = some c := by
  induction h generalizing o with
  | nil => exact hc
  | cons ev h ih =>
    refine ih _ ?_
    cases ev <;> first | exact hc | exact run_code_keep o _ hc

theorem mix_code_none (o : Obj n d) (h : List (MixtureSessions.Event n d)) {s : List ℕ} (hc : o.code s = none) (hn : ∀ ev ∈ h, evalShape ev ≠ some s) : (MixtureSessions.after chol o h).code s = none := by
  induction h generalizing o with
  | nil => exact hc
  | cons ev h ih =>
    refine ih _ ?_ fun ev' he => hn ev' (List.mem_cons_of_mem _ he)
    have h1 := hn ev List.mem_cons_self
    cases ev with
    | dens s' x => exact run_code_none o (fun h => h1 (by rw [evalShape, h])) hc
    | potential s' x => exact run_code_none o (fun h => h1 (by rw [evalShape, h])) hc
    | gradient x => exact run_code_none o (fun h => h1 (by rw [evalShape, h])) hc
    | _ => exact hc

/-- The result of an evaluation in an object whose code for the shape is known, or missing. -/
theorem mix_step_value (o : Obj n d) (ev : MixtureSessions.Event n d) {s : List ℕ} (he : evalShape ev = some s) (c : Mixture n d) (hc : (o.run s).1 = c) :
    (MixtureSessions.step chol o ev).2 = mixtureValue chol c ev ∧ (MixtureSessions.step chol o ev).1 = (o.run s).2 := by
  subst hc
  cases ev <;> simp only [evalShape, Option.some.injEq, reduceCtorEq] at he <;> subst he <;> exact ⟨rfl, rfl⟩

/-- C134, where it holds: the first evaluation with a given shape is that of the current attributes, whatever was assigned before. -/
theorem C134_partial (mx : Mixture n d) (h : List (MixtureSessions.Event n d)) (ev : MixtureSessions.Event n d) (s : List ℕ) (he : evalShape ev = some s) (hn : ∀ ev' ∈ h, evalShape ev' ≠ some s) :
    MixtureSessions.result chol mx h ev = mixtureValue chol (mixtureAfter mx h) ev := by
  have h1 := mix_code_none chol (Obj.new mx) h (s := s) rfl hn
  have h2 : (MixtureSessions.after chol (Obj.new mx) h).mixture = mixtureAfter mx h := mix_after_mixture chol _ h
  exact (mix_step_value chol _ ev he _ (by simp only [Obj.run, h1, h2])).1

/-- C134, exactly: later evaluations with that shape are those of the attributes at the first one, whatever is assigned in between. -/
theorem C134_exact (mx : Mixture n d) (h1 h2 : List (MixtureSessions.Event n d)) (ev0 ev : MixtureSessions.Event n d) (s : List ℕ) (he0 : evalShape ev0 = some s) (he : evalShape ev = some s)
    (hn : ∀ ev' ∈ h1, evalShape ev' ≠ some s) : MixtureSessions.result chol mx (h1 ++ ev0 :: h2) ev = mixtureValue chol (mixtureAfter mx h1) ev := by
  have e1 := mix_code_none chol (Obj.new mx) h1 (s := s) rfl hn
  have e2 : (MixtureSessions.after chol (Obj.new mx) h1).mixture = mixtureAfter mx h1 := mix_after_mixture chol _ h1
  have e3 : (MixtureSessions.step chol (MixtureSessions.after chol (Obj.new mx) h1) ev0).1.code s = some (mixtureAfter mx h1) := by
    rw [(mix_step_value chol _ ev0 he0 _ rfl).2, run_code_self _ e1, e2]
  have e4 := mix_code_keep chol _ h2 e3
  rw [MixtureSessions.result, mix_after_append, MixtureSessions.after]
  exact (mix_step_value chol _ ev he _ (by simp only [Obj.run, e4])).1

/-- With nothing assigned between the evaluations this is what the property asks for. -/
theorem C134_unchanged_partial (mx : Mixture n d) (h1 h2 : List (MixtureSessions.Event n d)) (ev : MixtureSessions.Event n d) (s : List ℕ) (he : evalShape ev = some s)
    (hn : ∀ ev' ∈ h1, evalShape ev' ≠ some s) (h2e : ∀ ev' ∈ h2, evalShape ev' ≠ none) : MixtureSessions.result chol mx (h1 ++ h2) ev = mixtureValue chol (mixtureAfter mx (h1 ++ h2)) ev := by
  have hm : ∀ (h2 : List (MixtureSessions.Event n d)) (mx : Mixture n d), (∀ ev' ∈ h2, evalShape ev' ≠ none) → mixtureAfter mx h2 = mx := by
    intro h2
    induction h2 with
    | nil => exact fun mx _ => rfl
    | cons e h ih =>
      intro mx hh
      have := ih mx fun ev' he' => hh ev' (List.mem_cons_of_mem _ he')
      have he1 := hh e List.mem_cons_self
      cases e <;> first | exact this | exact absurd rfl he1
  have ha : ∀ (h1 h2 : List (MixtureSessions.Event n d)) (mx : Mixture n d), mixtureAfter mx (h1 ++ h2) = mixtureAfter (mixtureAfter mx h1) h2 := by
    intro h1 h2
    induction h1 with
    | nil => exact fun _ => rfl
    | cons e h ih => intro mx; cases e <;> exact ih _
  by_cases hs : ∃ ev' ∈ h2, evalShape ev' = some s
  · obtain ⟨l1, e0, l2, hl, h0, hl1⟩ : ∃ l1 e0 l2, h2 = l1 ++ e0 :: l2 ∧ evalShape e0 = some s ∧ ∀ ev' ∈ l1, evalShape ev' ≠ some s := by
      clear h2e
      induction h2 with
      | nil => obtain ⟨_, h, _⟩ := hs; cases h
      | cons e h ih =>
        by_cases h0 : evalShape e = some s
        · exact ⟨[], e, h, rfl, h0, fun _ h => by cases h⟩
        · obtain ⟨l1, e0, l2, hl, h0', hl1⟩ := ih (by
            obtain ⟨ev', hm', hs'⟩ := hs
            rcases List.mem_cons.1 hm' with rfl | hm'
            · exact absurd hs' h0
            · exact ⟨ev', hm', hs'⟩)
          refine ⟨e :: l1, e0, l2, by rw [hl]; rfl, h0', fun ev' hm' => ?_⟩
          rcases List.mem_cons.1 hm' with rfl | hm'
          · exact h0
          · exact hl1 ev' hm'
    have hm1 : mixtureAfter (mixtureAfter mx h1) l1 = mixtureAfter mx h1 := hm l1 _ fun ev' h => h2e ev' (by rw [hl]; exact List.mem_append_left _ h)
    have := C134_exact chol mx (h1 ++ l1) l2 e0 ev s h0 he fun ev' hm' => (List.mem_append.1 hm').elim (hn ev') (hl1 ev')
    rw [ha h1 h2, hm h2 _ h2e, hl, ← List.append_assoc, this, ha, hm1]
  · refine C134_partial chol mx (h1 ++ h2) ev s he fun ev' hm' => (List.mem_append.1 hm').elim (hn ev') fun h h' => hs ⟨ev', h, h'⟩

end

/-- One standard normal component in one dimension. -/
noncomputable def oneComponent (m : ℝ) : Mixture 1 1 := ⟨fun _ _ => m, fun _ => 1, fun _ => 1⟩

/-- Assigning new means and then new covariances after an evaluation changes nothing: the density at 0 stays that of the old mixture, and the density of the new mixture is smaller. -/
theorem C134_fails (chol : Matrix (Fin 1) (Fin 1) ℝ → Matrix (Fin 1) (Fin 1) ℝ) (hchol : IsCholesky chol) : ∃ (h : List (MixtureSessions.Event 1 1)) (x : Fin 1 → ℝ) (v w : ℝ),
    mixtureAfter (oneComponent 0) h = oneComponent 5 ∧ MixtureSessions.result chol (oneComponent 0) h (.dens [] x) = some (.real v) ∧
    mixtureValue chol (mixtureAfter (oneComponent 0) h) (.dens [] x) = some (.real w) ∧ w < v := by
  refine ⟨[.dens [] 0, .means fun _ _ => 5, .covariances fun _ => 1], 0, dens chol (oneComponent 0) 0, dens chol (oneComponent 5) 0, rfl, ?_, rfl, ?_⟩
  · exact C134_exact chol (oneComponent 0) [] [.means fun _ _ => 5, .covariances fun _ => 1] (.dens [] 0) (.dens [] 0) [] rfl rfl fun _ h => by cases h
  · simp only [dens, Finset.univ_unique, Finset.sum_singleton, Real.exp_lt_exp, neg_lt_neg_iff]
    have h1 : chol 1 0 0 * chol 1 0 0 = 1 := by
      have := congrFun (congrFun (hchol 1 Matrix.PosDef.one) 0) 0
      simpa [Matrix.mul_apply] using this
    have h2 : (5 * chol 1 0 0) ^ 2 = 25 := by rw [mul_pow, sq (chol 1 0 0), h1]; norm_num
    simp only [componentPotential, precision, oneComponent, inv_one, Finset.univ_unique, Finset.sum_singleton, Matrix.vecMul, dotProduct, Matrix.transpose_apply, Pi.sub_apply, Pi.zero_apply, Fin.default_eq_zero]
    nlinarith [h2]

/-- A history that meets the hypotheses of `C134_unchanged_partial`: values at a batch of 7 points, an assignment, values and a gradient at single points. -/
example (chol : Matrix (Fin 2) (Fin 2) ℝ → Matrix (Fin 2) (Fin 2) ℝ) (mx : Mixture 3 2) (w : Fin 3 → ℝ) (x y : Fin 2 → ℝ) :
    MixtureSessions.result chol mx ([.dens [7] x, .weights w] ++ [.gradient x, .dens [4] y]) (.potential [] y) = some (.real (-Real.log (dens chol ⟨mx.means, mx.covariances, w⟩ y))) :=
  C134_unchanged_partial chol mx [.dens [7] x, .weights w] [.gradient x, .dens [4] y] (.potential [] y) [] rfl (by simp [evalShape]) (by simp [evalShape])

end Mocat.Props
