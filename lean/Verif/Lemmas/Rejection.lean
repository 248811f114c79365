import Verif.Model.Backward
import Verif.Props.Backward
import Verif.Lemmas.Tape
/-! The rejection sampler particle by particle, when the bound dominates all densities. -/
namespace Mocat.Backward
open Mocat Mocat.Props Mocat.Ideal MeasureTheory Mocat.Meas
open scoped ENNReal

variable {K : Type} {m N : ℕ}

/-- One particle: `n` more attempts, then the draw from the full weights. -/
noncomputable def attempts (r : Rand K m N) (lw : Fin N → Fl) (pot : Fin N → ℝ) (bound : ℝ) : ℕ → K → Fin N
  | 0, k => r.choice k (fullLogWeight lw pot)
  | n + 1, k =>
    let j := r.choice (r.split3 k).2.1 lw
    open Classical in
    if Rejects (r.uniform (r.split3 k).2.2) (Real.exp (-pot j)) bound then attempts r lw pot bound n (r.split3 k).1 else j

section
variable [NeZero m] (r : Rand K m N) (lw : Fin N → Fl)

/-- The result of particle `i` at loop state `s` if `n` more rounds were allowed and no bound was ever raised. -/
noncomputable def outcome (pot : Fin m → Fin N → ℝ) (n : ℕ) (s : RState K m N) (i : Fin m) : Fin N :=
  if s.notYet i then attempts r lw (pot i) s.bound n (s.keys i) else s.idx i

theorem proposalAll_noreset (dens : Fin m → Fin N → ℝ) (inflation : ℝ) (s : RState K m N) (h0 : 0 ≤ s.bound) (h : ∀ i j, dens i j ≤ s.bound) :
    (proposalAll r lw dens inflation s).bound = s.bound ∧
    ∀ i, (proposalAll r lw dens inflation s).notYet i = (proposalSingle r lw dens s i).2.2.1 := by
  have hM : ¬ s.bound < maxOf fun i => (proposalSingle r lw dens s i).2.1 := by
    obtain ⟨i, hi⟩ := maxOf_mem fun i => (proposalSingle r lw dens s i).2.1
    rw [hi, not_lt]
    unfold proposalSingle
    split_ifs
    · exact h _ _
    · exact h0
  unfold proposalAll
  dsimp only
  simp only [@decide_eq_false _ (_) hM]
  exact ⟨rfl, fun i => rfl⟩

theorem outcome_step (pot : Fin m → Fin N → ℝ) (inflation : ℝ) (n : ℕ) (s : RState K m N) (h0 : 0 ≤ s.bound)
    (h : ∀ i j, Real.exp (-pot i j) ≤ s.bound) (i : Fin m) :
    outcome r lw pot n (proposalAll r lw (fun i j => Real.exp (-pot i j)) inflation s) i = outcome r lw pot (n + 1) s i := by
  obtain ⟨h1, h2⟩ := proposalAll_noreset r lw (fun i j => Real.exp (-pot i j)) inflation s h0 h
  unfold outcome
  rw [h1, h2 i]
  change (if (proposalSingle r lw _ s i).2.2.1 then attempts r lw (pot i) s.bound n (proposalSingle r lw (fun i j => Real.exp (-pot i j)) s i).2.2.2
    else (proposalSingle r lw (fun i j => Real.exp (-pot i j)) s i).1) = _
  cases hy : s.notYet i with
  | false => simp [proposalSingle, hy]
  | true =>
    simp only [proposalSingle, hy, if_true, attempts]
    by_cases hr : Rejects (r.uniform (r.split3 (s.keys i)).2.2) (Real.exp (-pot i (r.choice (r.split3 (s.keys i)).2.1 lw))) s.bound
    · rw [if_pos hr, @decide_eq_true _ (_) hr, if_pos rfl]
    · rw [if_neg hr, @decide_eq_false _ (_) hr]; rfl

theorem outcome_rounds (pot : Fin m → Fin N → ℝ) (inflation : ℝ) (n k : ℕ) (s : RState K m N) (h0 : 0 ≤ s.bound)
    (h : ∀ i j, Real.exp (-pot i j) ≤ s.bound) (i : Fin m) :
    (rounds r lw (fun i j => Real.exp (-pot i j)) inflation s k).bound = s.bound ∧
    outcome r lw pot n (rounds r lw (fun i j => Real.exp (-pot i j)) inflation s k) i = outcome r lw pot (n + k) s i := by
  induction k generalizing n with
  | zero => exact ⟨rfl, rfl⟩
  | succ k ih =>
    have hb := (ih 0).1
    rw [rounds]
    refine ⟨?_, ?_⟩
    · rw [(proposalAll_noreset r lw _ inflation _ (by rw [hb]; exact h0) (by rw [hb]; exact h)).1, hb]
    · rw [outcome_step r lw pot inflation n _ (by rw [hb]; exact h0) (by rw [hb]; exact h), (ih (n + 1)).2]
      congr 1; omega

/-- With a bound that dominates all densities each particle is treated on its own: one attempt, then up to `maximum_rejections - 1` more, then the full draw. -/
theorem rejection_eq (pot : Fin m → Fin N → ℝ) (initBound inflation : ℝ) (h0 : 0 ≤ initBound) (h : ∀ i j, Real.exp (-pot i j) ≤ initBound) (maxRej : ℤ) (key : K)
    (i : Fin m) : (rejection r lw pot initBound inflation maxRej key).1 i =
      (open Classical in
      if Rejects (r.uniforms (r.split3 key).2.1 i) (Real.exp (-pot i (r.choices (r.split3 key).1 lw i))) initBound then
        attempts r lw (pot i) initBound (maxRej - 1).toNat (r.splitN (r.split3 key).2.2 i)
      else r.choices (r.split3 key).1 lw i) := by
  set dens := fun (i : Fin m) (j : Fin N) => Real.exp (-pot i j) with hdens
  set s := rejectionInit r lw dens initBound inflation key with hs
  have hM : ¬ initBound < maxOf fun i => dens i (r.choices (r.split3 key).1 lw i) := by
    obtain ⟨i, hi⟩ := maxOf_mem fun i => dens i (r.choices (r.split3 key).1 lw i)
    rw [hi, not_lt]; exact h _ _
  have hb : s.bound = initBound := by rw [hs]; unfold rejectionInit; exact if_neg hM
  obtain ⟨k, h1, h2, h3, -⟩ := C54_bounded r lw dens initBound inflation maxRej key
  rw [← hs] at h2 h3
  have hout : (rejection r lw pot initBound inflation maxRej key).1 i = outcome r lw pot 0 (rounds r lw dens inflation s k) i := by
    unfold rejection
    dsimp only
    rw [← hdens, ← hs, h2]
    rfl
  have hextra : outcome r lw pot 0 (rounds r lw dens inflation s k) i
      = outcome r lw pot ((maxRej - 1).toNat - k) (rounds r lw dens inflation s k) i := by
    rcases h3 with h3 | h3
    · unfold outcome; rw [h3 i]; rfl
    · rw [show (maxRej - 1).toNat - k = 0 by omega]
  rw [hout, hextra, (outcome_rounds r lw pot inflation _ k s (by rw [hb]; exact h0) (by rw [hb]; exact h) i).2,
    show (maxRej - 1).toNat - k + k = (maxRej - 1).toNat by omega]
  unfold outcome
  rw [hb]
  have hny : s.notYet i = (open Classical in decide (Rejects (r.uniforms (r.split3 key).2.1 i) (dens i (r.choices (r.split3 key).1 lw i)) initBound)) := by
    rw [← hb]; rfl
  rw [hny]
  by_cases hr : Rejects (r.uniforms (r.split3 key).2.1 i) (dens i (r.choices (r.split3 key).1 lw i)) initBound
  · rw [if_pos hr, @decide_eq_true _ (_) hr, if_pos rfl]; rfl
  · rw [if_neg hr, @decide_eq_false _ (_) hr]; rfl

end

end Mocat.Backward
