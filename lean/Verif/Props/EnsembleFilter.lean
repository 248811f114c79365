import Verif.Model.EnsembleFilter
import Verif.Props.Filtering
import Verif.Props.Metrics
import Verif.Props.NonlinearGaussian
/-!
# C124: runs of the ensemble Kalman filter
-/
namespace Mocat.Props
open Mocat Mocat.Metrics Mocat.Filtering Mocat.NonlinearGaussian Mocat.EnsembleFilter

variable {X K : Type} {n dy d e : ℕ}

/-- The vectorised model and the model of `Verif.Model.Filtering` agree for filters that do not override the vectorised methods. -/
theorem run_ofFilter (env : Env K n) (f : Filter X K dy) (thr : ℝ) (ys : List (Obs dy)) (ts : List ℝ) (key : K) :
    EnsembleFilter.run env (ofFilter f) thr ys ts key = Filtering.run env f thr ys ts key := by
  cases ys <;> cases ts <;> rfl

theorem propagate_ofFilter (env : Env K n) (f : Filter X K dy) (thr : ℝ) (full : Bool) (p : Particles X n dy) (y : Obs dy) (t : ℝ) (key : K) :
    EnsembleFilter.propagate env (ofFilter f) thr full p y t key = Filtering.propagate env f thr full p y t key := rfl

theorem ess_zeros (hn : 0 < n) : essLogWeight (fun _ : Fin n => Fl.fin 0) = Fl.fin n := by
  have : Nonempty (Fin n) := ⟨⟨0, hn⟩⟩
  have h := C33_count (fun _ : Fin n => Fl.fin 0) 0 Finset.univ Finset.univ_nonempty fun i => ⟨fun _ => rfl, fun h => absurd (Finset.mem_univ i) h⟩
  rw [h, Finset.card_univ, Fintype.card_fin]

/-- The successive ensembles of the filter, by `EnsembleKalmanFilter`'s own update, with no resampling: observation, its time and its key for each step. -/
noncomputable def enkfEnsembles [Inhabited K] (env : Env K n) (normal : K → (r c : ℕ) → Fin r → Fin c → ℝ) (chol : Chol) (m : NLG d e) :
    (Fin n → Fin d → ℝ) → ℝ → List (Obs e × ℝ × K) → List (Fin n → Fin d → ℝ)
  | _, _, [] => []
  | x, t, (y, t', k) :: os =>
    let x' := enkf chol m x t y t' (normal (env.splitN 2 (firstKey (env.splitN n k)) 0) n d) (normal (env.splitN 2 (firstKey (env.splitN n k)) 1) n e)
    x' :: enkfEnsembles env normal chol m x' t' os

section
variable [Inhabited K] (env : Env K n) (normal : K → (r c : ℕ) → Fin r → Fin c → ℝ) (chol : Chol) (m : NLG d e)

theorem enkf_scan (hn : 0 < n) {thr : ℝ} (hthr : thr ≤ 1) (s : Slice (Fin d → ℝ) n e) (hw : s.logWeight = fun _ => Fl.fin 0) (he : s.ess = Fl.fin n) (obs : List (Obs e × ℝ × K)) :
    let slices := (scan (fun s o => (EnsembleFilter.body env (ensembleKalman env.splitN normal chol m) thr s o, EnsembleFilter.body env (ensembleKalman env.splitN normal chol m) thr s o)) s obs).2
    slices.map Slice.value = enkfEnsembles env normal chol m s.value s.t obs ∧ slices.map Slice.logWeight = List.replicate obs.length (fun _ => Fl.fin 0) ∧
      slices.map Slice.ess = List.replicate obs.length (Fl.fin n) ∧ slices.map Slice.t = obs.map (·.2.1) ∧ slices.map Slice.y = obs.map (·.1) := by
  induction obs generalizing s with
  | nil => simp [scan, enkfEnsembles]
  | cons o os ih =>
    obtain ⟨y, t, k⟩ := o
    have hres : ¬ Fl.lt s.ess (.fin (thr * n)) := by
      rw [he]
      have hn' : (0 : ℝ) < n := by exact_mod_cast hn
      simp only [Fl.lt, not_lt]
      nlinarith
    have hb : EnsembleFilter.body env (ensembleKalman env.splitN normal chol m) thr s (y, t, k)
        = ⟨enkf chol m s.value s.t y t (normal (env.splitN 2 (firstKey (env.splitN n k)) 0) n d) (normal (env.splitN 2 (firstKey (env.splitN n k)) 1) n e), fun _ => Fl.fin 0, t, y, Fl.fin n⟩ := by
      simp only [EnsembleFilter.body, if_neg hres, hw, ensembleKalman, Fl.add, add_zero]
      rw [ess_zeros hn]
    have h := ih (EnsembleFilter.body env (ensembleKalman env.splitN normal chol m) thr s (y, t, k)) (by rw [hb]) (by rw [hb])
    simp only [scan, List.map_cons, enkfEnsembles, List.length_cons, List.replicate_succ]
    rw [h.1, h.2.1, h.2.2.1, h.2.2.2.1, h.2.2.2.2, hb]
    exact ⟨rfl, rfl, rfl, rfl, rfl⟩

/-- C124: with a threshold of at most 1, a run of the ensemble Kalman filter never resamples: for all models, observations, times and keys, every log weight it reports is 0, every ESS is the number of particles, and
the reported ensembles are the first draw and then the update of the previous ensemble. -/
theorem C124_run (hn : 0 < n) {thr : ℝ} (hthr : thr ≤ 1) (y0 : Obs e) (ys : List (Obs e)) (t0 : ℝ) (ts : List ℝ) (hlen : ts.length = ys.length) (key : K) :
    ∃ p, EnsembleFilter.run env (ensembleKalman env.splitN normal chol m) thr (y0 :: ys) (t0 :: ts) key = some p ∧
      p.logWeight = List.replicate (ys.length + 1) (fun _ => Fl.fin 0) ∧ p.ess = List.replicate (ys.length + 1) (Fl.fin n) ∧ p.t = t0 :: ts ∧ p.y = .rows (y0 :: ys) ∧
      p.value = (fun i => initialSample chol m y0 (normal (firstKey (env.splitN n (env.splitN 2 key 1))) n d i)) ::
        enkfEnsembles env normal chol m (fun i => initialSample chol m y0 (normal (firstKey (env.splitN n (env.splitN 2 key 1))) n d i)) t0
          (ys.zip (ts.zip (List.ofFn (env.splitN ys.length (env.splitN 2 key 0))))) := by
  set x0 : Fin n → Fin d → ℝ := fun i => initialSample chol m y0 (normal (firstKey (env.splitN n (env.splitN 2 key 1))) n d i) with hx0
  set s0 : Slice (Fin d → ℝ) n e := ⟨x0, fun _ => Fl.fin 0, t0, y0, essLogWeight fun _ : Fin n => Fl.fin 0⟩ with hs0
  set obs := withKeys env ys ts (env.splitN 2 key 0) with hobs
  have h := enkf_scan env normal chol m hn hthr s0 rfl (ess_zeros hn) obs
  have hl : obs.length = ys.length := by
    simp [hobs, withKeys, hlen]
  have hy : obs.map (·.1) = ys := by
    simp only [hobs, withKeys]
    exact List.map_fst_zip (by simp [hlen])
  have ht : obs.map (·.2.1) = ts := by
    have e1 : obs.map (·.2.1) = (obs.map Prod.snd).map Prod.fst := by rw [List.map_map]; rfl
    rw [e1]
    simp only [hobs, withKeys]
    rw [List.map_snd_zip (by simp [hlen]), List.map_fst_zip (by simp [hlen])]
  simp only [hl, hy, ht] at h
  refine ⟨_, rfl, congrArg (List.cons _) h.2.1, ?_, congrArg (List.cons _) h.2.2.2.1, congrArg (fun l => YRec.rows (y0 :: l)) h.2.2.2.2, congrArg (List.cons _) h.1⟩
  exact (congrArg (List.cons _) h.2.2.1).trans (congrArg (· :: List.replicate ys.length (Fl.fin n)) (ess_zeros hn))

/-- C124 for observations fed one at a time (`propagate_particle_filter`): equal weights stay equal, earlier ensembles are kept, and the new one is the update of the last. -/
theorem C124_propagate (hn : 0 < n) {thr : ℝ} (hthr : thr ≤ 1) (full : Bool) (p : Particles (Fin d → ℝ) n e) (x : Fin n → Fin d → ℝ) (t : ℝ) (hx : p.value.getLast? = some x)
    (hw : p.logWeight.getLast? = some fun _ => Fl.fin 0) (he : p.ess.getLast? = some (Fl.fin n)) (ht : p.t.getLast? = some t) (y : Obs e) (t' : ℝ) (key : K) :
    ∃ p', EnsembleFilter.propagate env (ensembleKalman env.splitN normal chol m) thr full p y t' key = some p' ∧
      p'.logWeight = p.logWeight ++ [fun _ => Fl.fin 0] ∧ p'.ess = p.ess ++ [Fl.fin n] ∧ p'.t = p.t ++ [t'] ∧ p'.y = p.y.append y ∧
      p'.value = p.value ++ [enkf chol m x t y t' (normal (env.splitN 2 (firstKey (env.splitN n key)) 0) n d) (normal (env.splitN 2 (firstKey (env.splitN n key)) 1) n e)] := by
  have hres : ¬ Fl.lt (Fl.fin n) (.fin (thr * n)) := by
    have hn' : (0 : ℝ) < n := by exact_mod_cast hn
    simp only [Fl.lt, not_lt]
    nlinarith
  unfold EnsembleFilter.propagate
  simp only [he, hw, Option.bind_eq_bind, Option.bind_some, if_neg hres, hx, ht, ensembleKalman, Fl.add, add_zero]
  rw [ess_zeros hn]
  exact ⟨_, rfl, rfl, rfl, rfl, rfl, rfl⟩

end

end Mocat.Props
