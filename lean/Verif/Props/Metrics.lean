import Verif.Model.Metrics
import Mathlib.Algebra.Order.Chebyshev
import Mathlib.Data.List.GetD
import Mathlib.Tactic.Linarith
import Mathlib.Tactic.FieldSimp
import Mathlib.Tactic.NormNum
import Mathlib.Tactic.IntervalCases
/-!
# C33-C35, C90: weight ESS, autocorrelation, integrated autocorrelation time, squared jumping distance
-/
namespace Mocat.Props
open Mocat Mocat.Metrics

/-! ## C33 -/

variable {n : ℕ}

/-- The weights encoded by log weights: `w` is `0` exactly where the log weight is `-inf`, and `exp` of it elsewhere; not all
weights are zero. -/
structure Encodes (v : Fin n → Fl) (w : Fin n → ℝ) : Prop where
  enc : ∀ i, (v i = Fl.ninf ∧ w i = 0) ∨ ∃ x, v i = Fl.fin x ∧ w i = Real.exp x
  live : ∃ i, 0 < w i

theorem Encodes.nonneg {v : Fin n → Fl} {w : Fin n → ℝ} (h : Encodes v w) (i) : 0 ≤ w i := by
  rcases h.enc i with ⟨_, h⟩ | ⟨x, _, h⟩ <;> rw [h]
  exact (Real.exp_pos x).le

theorem Encodes.sum_pos {v : Fin n → Fl} {w : Fin n → ℝ} (h : Encodes v w) : 0 < ∑ i, w i :=
  h.live.elim fun i hi => Finset.sum_pos' (fun j _ => h.nonneg j) ⟨i, Finset.mem_univ _, hi⟩

theorem Encodes.sum_sq_pos {v : Fin n → Fl} {w : Fin n → ℝ} (h : Encodes v w) : 0 < ∑ i, w i ^ 2 :=
  h.live.elim fun i hi => Finset.sum_pos' (fun j _ => sq_nonneg _) ⟨i, Finset.mem_univ _, by positivity⟩

theorem logsumexp_encodes {v : Fin n → Fl} {w : Fin n → ℝ} (h : Encodes v w) :
    logsumexp v = Fl.fin (Real.log (∑ i, w i)) := by
  have h1 : ¬ ∃ i, v i = Fl.nan := by
    rintro ⟨i, hi⟩; rcases h.enc i with ⟨h, _⟩ | ⟨x, h, _⟩ <;> rw [hi] at h <;> cases h
  have h2 : ¬ ∃ i, v i = Fl.pinf := by
    rintro ⟨i, hi⟩; rcases h.enc i with ⟨h, _⟩ | ⟨x, h, _⟩ <;> rw [hi] at h <;> cases h
  have h3 : (fun i => wexp (v i)) = w := by
    funext i
    rcases h.enc i with ⟨h, h'⟩ | ⟨x, h, h'⟩ <;> rw [h, h'] <;> rfl
  unfold logsumexp flLog
  rw [if_neg h1, if_neg h2, h3, if_neg h.sum_pos.ne']

theorem Encodes.double {v : Fin n → Fl} {w : Fin n → ℝ} (h : Encodes v w) :
    Encodes (fun i => Fl.mul (Fl.fin 2) (v i)) (fun i => w i ^ 2) := by
  refine ⟨fun i => ?_, h.live.imp fun i hi => by positivity⟩
  rcases h.enc i with ⟨h, h'⟩ | ⟨x, h, h'⟩
  · left; rw [h, h']; simp [Fl.mul]
  · right; refine ⟨2 * x, by rw [h]; rfl, ?_⟩
    rw [h', ← Real.exp_nat_mul]; norm_num

/-- C33: the effective sample size is `(Σ w)² / Σ w²`. -/
theorem C33_formula (v : Fin n → Fl) (w : Fin n → ℝ) (h : Encodes v w) :
    essLogWeight v = Fl.fin ((∑ i, w i) ^ 2 / ∑ i, w i ^ 2) := by
  unfold essLogWeight logEssLogWeight
  rw [logsumexp_encodes h, logsumexp_encodes h.double]
  simp only [Fl.mul, Fl.sub, Fl.neg, Fl.add, Fl.exp]
  congr 1
  rw [Real.exp_add, Real.exp_neg, Real.exp_log h.sum_sq_pos, mul_comm 2, Real.exp_mul, Real.exp_log h.sum_pos]
  norm_num [div_eq_mul_inv]

/-- C33: it lies between 1 and `n`. -/
theorem C33_range (v : Fin n → Fl) (w : Fin n → ℝ) (h : Encodes v w) :
    ∃ e : ℝ, essLogWeight v = Fl.fin e ∧ 1 ≤ e ∧ e ≤ n := by
  refine ⟨_, C33_formula v w h, ?_, ?_⟩
  · rw [one_le_div h.sum_sq_pos]
    rw [sq, Finset.sum_mul_sum]
    calc ∑ i, w i ^ 2 = ∑ i, w i * w i := by simp only [sq]
      _ ≤ ∑ i, ∑ j, w i * w j := Finset.sum_le_sum fun i _ =>
          Finset.single_le_sum (f := fun j => w i * w j) (fun j _ => mul_nonneg (h.nonneg i) (h.nonneg j)) (Finset.mem_univ i)
  · rw [div_le_iff₀ h.sum_sq_pos]
    have := sq_sum_le_card_mul_sum_sq (s := Finset.univ) (f := w)
    simpa using this

/-- C33: it is `n` exactly when all weights are equal. -/
theorem C33_max_iff (v : Fin n → Fl) (w : Fin n → ℝ) (h : Encodes v w) :
    essLogWeight v = Fl.fin n ↔ ∀ i j, w i = w j := by
  rw [C33_formula v w h, Fl.fin.injEq, div_eq_iff h.sum_sq_pos.ne']
  have key : (n : ℝ) * ∑ i, w i ^ 2 - (∑ i, w i) ^ 2 = (1 / 2) * ∑ i, ∑ j, (w i - w j) ^ 2 := by
    have : ∀ i j, (w i - w j) ^ 2 = w i ^ 2 - 2 * (w i * w j) + w j ^ 2 := fun i j => by ring
    simp only [this, Finset.sum_add_distrib, Finset.sum_sub_distrib, ← Finset.mul_sum, Finset.sum_const, Finset.card_univ,
      Fintype.card_fin, nsmul_eq_mul, sq (∑ i, w i), Finset.sum_mul_sum]
    ring
  constructor
  · intro he i j
    have h0 : ∑ i, ∑ j, (w i - w j) ^ 2 = 0 := by linarith
    have h1 := (Finset.sum_eq_zero_iff_of_nonneg (fun i _ => Finset.sum_nonneg fun j _ => sq_nonneg _)).1 h0 i (Finset.mem_univ i)
    have h2 := (Finset.sum_eq_zero_iff_of_nonneg (fun j _ => sq_nonneg _)).1 h1 j (Finset.mem_univ j)
    have := pow_eq_zero_iff (two_ne_zero) |>.1 h2
    linarith
  · intro he
    have h0 : ∑ i, ∑ j, (w i - w j) ^ 2 = 0 :=
      Finset.sum_eq_zero fun i _ => Finset.sum_eq_zero fun j _ => by rw [he i j]; ring
    rw [h0] at key; linarith

/-- C33: adding a constant to all log weights changes nothing. -/
theorem C33_shift (v : Fin n → Fl) (w : Fin n → ℝ) (h : Encodes v w) (c : ℝ) :
    essLogWeight (fun i => Fl.add (v i) (Fl.fin c)) = essLogWeight v := by
  have h' : Encodes (fun i => Fl.add (v i) (Fl.fin c)) (fun i => Real.exp c * w i) := by
    refine ⟨fun i => ?_, h.live.imp fun i hi => mul_pos (Real.exp_pos c) hi⟩
    rcases h.enc i with ⟨h, h'⟩ | ⟨x, h, h'⟩
    · left; rw [h, h']; simp [Fl.add]
    · right; refine ⟨x + c, by rw [h]; rfl, ?_⟩
      rw [h', ← Real.exp_add, add_comm]
  rw [C33_formula _ _ h', C33_formula _ _ h]
  congr 1
  have hc := (Real.exp_pos c).ne'
  simp only [mul_pow, ← Finset.mul_sum]
  rw [mul_div_mul_left _ _ (pow_ne_zero 2 hc)]

/-- C33: permuting the log weights changes nothing. -/
theorem C33_perm (v : Fin n → Fl) (w : Fin n → ℝ) (h : Encodes v w) (σ : Equiv.Perm (Fin n)) :
    essLogWeight (fun i => v (σ i)) = essLogWeight v := by
  have h' : Encodes (fun i => v (σ i)) (fun i => w (σ i)) := by
    refine ⟨fun i => h.enc (σ i), ?_⟩
    obtain ⟨i, hi⟩ := h.live
    exact ⟨σ.symm i, by simpa using hi⟩
  rw [C33_formula _ _ h', C33_formula _ _ h, Equiv.sum_comp σ w, Equiv.sum_comp σ fun i => w i ^ 2]

/-- C33: for log weights in `{c, -inf}` it is the number of particles with weight. -/
theorem C33_count (v : Fin n → Fl) (c : ℝ) (A : Finset (Fin n)) (hA : A.Nonempty)
    (hv : ∀ i, (i ∈ A → v i = Fl.fin c) ∧ (i ∉ A → v i = Fl.ninf)) : essLogWeight v = Fl.fin A.card := by
  have h : Encodes v (fun i => if i ∈ A then Real.exp c else 0) := by
    refine ⟨fun i => ?_, hA.imp fun i hi => by simp [hi, Real.exp_pos]⟩
    by_cases hi : i ∈ A
    · right; exact ⟨c, (hv i).1 hi, by simp [hi]⟩
    · left; exact ⟨(hv i).2 hi, by simp [hi]⟩
  have hc := (Real.exp_pos c).ne'
  have hcard : (A.card : ℝ) ≠ 0 := by exact_mod_cast hA.card_pos.ne'
  rw [C33_formula _ _ h]
  congr 1
  simp only [ite_pow, ne_eq, OfNat.ofNat_ne_zero, not_false_eq_true, zero_pow, Finset.sum_ite_mem, Finset.univ_inter,
    Finset.sum_const, nsmul_eq_mul]
  field_simp

/-- When all log weights are `-inf` the result is NaN. -/
theorem C33_all_dead (v : Fin n → Fl) (h : ∀ i, v i = Fl.ninf) : essLogWeight v = Fl.nan := by
  have h1 : logsumexp v = Fl.ninf := by
    unfold logsumexp flLog
    simp [h, wexp]
  have h2 : (logsumexp fun i => Fl.mul (Fl.fin 2) (v i)) = Fl.ninf := by
    unfold logsumexp flLog
    simp [h, wexp, Fl.mul]
  unfold essLogWeight logEssLogWeight
  rw [h1, h2]
  simp [Fl.mul, Fl.sub, Fl.neg, Fl.add, Fl.exp]

/-- C33, exactly when it fails: the result is NaN if and only if some log weight is NaN or `+inf`, or all weights are zero. -/
theorem C33_nan_iff (v : Fin n → Fl) : essLogWeight v = Fl.nan ↔ (∃ i, v i = Fl.nan ∨ v i = Fl.pinf) ∨ ∀ i, v i = Fl.ninf := by
  constructor
  · intro h
    by_contra hc
    push Not at hc
    obtain ⟨h1, i, hi⟩ := hc
    have he : Encodes v fun i => wexp (v i) := by
      refine ⟨fun j => ?_, i, ?_⟩
      · cases hj : v j with
        | nan => exact absurd hj (h1 j).1
        | ninf => exact Or.inl ⟨rfl, rfl⟩
        | fin x => exact Or.inr ⟨x, rfl, rfl⟩
        | pinf => exact absurd hj (h1 j).2
      · cases hj : v i with
        | nan => exact absurd hj (h1 i).1
        | ninf => exact absurd hj hi
        | fin x => exact Real.exp_pos x
        | pinf => exact absurd hj (h1 i).2
    rw [C33_formula v _ he] at h
    cases h
  · rintro (h | h)
    · by_cases hn : ∃ i, v i = Fl.nan
      · have h1 : logsumexp v = Fl.nan := by unfold logsumexp; rw [if_pos hn]
        unfold essLogWeight logEssLogWeight
        rw [h1]; rfl
      · obtain ⟨i, hi | hi⟩ := h
        · exact absurd ⟨i, hi⟩ hn
        have h1 : logsumexp v = Fl.pinf := by unfold logsumexp; rw [if_neg hn, if_pos ⟨i, hi⟩]
        have h2 : logsumexp (fun i => Fl.mul (Fl.fin 2) (v i)) = Fl.pinf := by
          unfold logsumexp
          rw [if_neg, if_pos ⟨i, by simp [hi, Fl.mul]⟩]
          rintro ⟨j, hj⟩
          cases hv : v j with
          | nan => exact hn ⟨j, hv⟩
          | ninf => simp [hv, Fl.mul] at hj
          | fin x => simp [hv, Fl.mul] at hj
          | pinf => simp [hv, Fl.mul] at hj
        unfold essLogWeight logEssLogWeight
        rw [h1, h2]
        simp [Fl.mul, Fl.sub, Fl.neg, Fl.add, Fl.exp]
    · exact C33_all_dead v h

/-- Non-vacuity of C33: three particles, one of them dead. -/
example : Encodes ![Fl.fin 1, Fl.ninf, Fl.fin 3] ![Real.exp 1, 0, Real.exp 3] := by
  refine ⟨fun i => ?_, 0, by simpa using Real.exp_pos 1⟩
  fin_cases i <;> simp

/-! ## C34 -/

/-- Specification: lag-`k` sample autocovariance of a series, times its length. -/
noncomputable def autocov (vals : List ℝ) (k : ℕ) : ℝ :=
  ∑ j ∈ Finset.range (vals.length - k), (vals.getD j 0 - vals.sum / vals.length) * (vals.getD (j + k) 0 - vals.sum / vals.length)

theorem le_nextPowTwoFrom (n i : ℕ) (h : 0 < i) : n ≤ nextPowTwoFrom n i := by
  unfold nextPowTwoFrom
  split_ifs with hc
  · exact le_nextPowTwoFrom n (i * 2) (by omega)
  · omega
  termination_by n - i

theorem le_nextPowTwo (n : ℕ) : n ≤ nextPowTwo n := le_nextPowTwoFrom n 1 one_pos

theorem dft_autocorr {N : ℕ} [NeZero N] (x : ZMod N → ℂ) :
    ZMod.dft.symm (fun m => ZMod.dft x m * starRingEnd ℂ (ZMod.dft x m))
      = fun k => ∑ j, x (j + k) * starRingEnd ℂ (x j) := by
  rw [LinearEquiv.symm_apply_eq]
  funext m
  rw [ZMod.dft_apply, ZMod.dft_apply]
  simp only [smul_eq_mul, map_sum, map_mul, Finset.mul_sum]
  rw [Finset.sum_comm]
  refine Finset.sum_congr rfl fun i _ => ?_
  rw [Finset.sum_mul, ← Equiv.sum_comp (Equiv.addLeft i)]
  refine Finset.sum_congr rfl fun k _ => ?_
  rw [Equiv.coe_addLeft, ← AddChar.map_neg_eq_conj, neg_neg, add_mul, neg_add, AddChar.map_add_eq_mul,
    AddChar.map_neg_eq_inv (ZMod.stdAddChar) (i * m)]
  have hne : (ZMod.stdAddChar (i * m) : ℂ) ≠ 0 := by
    intro h0
    have := AddChar.map_add_eq_mul (ZMod.stdAddChar (N := N)) (i * m) (-(i * m))
    rw [add_neg_cancel, AddChar.map_zero_eq_one, h0, zero_mul] at this
    exact one_ne_zero this
  field_simp

theorem sum_zmod {N : ℕ} [NeZero N] (g : ℕ → ℂ) : ∑ j : ZMod N, g j.val = ∑ j ∈ Finset.range N, g j := by
  refine Finset.sum_bij (fun j _ => j.val) (fun j _ => Finset.mem_range.2 (ZMod.val_lt j))
    (fun a _ b _ h => ZMod.val_injective N h) (fun b hb => ⟨(b : ZMod N), Finset.mem_univ _, ?_⟩) (fun _ _ => rfl)
  exact ZMod.val_cast_of_lt (Finset.mem_range.1 hb)

theorem circular_eq (y : List ℝ) (N k : ℕ) [NeZero N] (hk : k < y.length) (hN : y.length + k ≤ N) :
    (∑ j : ZMod N, padded N y (j + (k : ZMod N)) * starRingEnd ℂ (padded N y j)).re
      = ∑ j ∈ Finset.range (y.length - k), y.getD j 0 * y.getD (j + k) 0 := by
  have hval : ∀ j : ZMod N, j.val < y.length → (j + (k : ZMod N)).val = j.val + k := by
    intro j hj
    rw [ZMod.val_add, ZMod.val_cast_of_lt (by omega), Nat.mod_eq_of_lt (by omega)]
  have h1 : ∑ j : ZMod N, padded N y (j + (k : ZMod N)) * starRingEnd ℂ (padded N y j)
      = ∑ j : ZMod N, (fun j : ℕ => ((y.getD j 0 * y.getD (j + k) 0 : ℝ) : ℂ)) j.val := by
    refine Finset.sum_congr rfl fun j _ => ?_
    simp only [padded, Complex.conj_ofReal]
    by_cases hj : j.val < y.length
    · rw [hval j hj]; push_cast; ring
    · rw [List.getD_eq_default _ _ (not_lt.1 hj)]; simp
  rw [h1, sum_zmod (fun j : ℕ => ((y.getD j 0 * y.getD (j + k) 0 : ℝ) : ℂ)), Complex.re_sum]
  simp only [Complex.ofReal_re]
  rw [← Finset.sum_subset (Finset.range_mono (show y.length - k ≤ N by omega))]
  intro j _ hj
  rw [Finset.mem_range, not_lt] at hj
  rw [List.getD_eq_default y 0 (show y.length ≤ j + k by omega), mul_zero]

theorem acfRaw_eq (vals : List ℝ) (maxLag k : ℕ) (hk : k < vals.length)
    (hN : vals.length + k ≤ 2 * nextPowTwo (min maxLag vals.length)) : acfRaw vals maxLag k = autocov vals k := by
  unfold acfRaw
  dsimp only
  rw [dft_autocorr, circular_eq (vals.map fun x => x - mean vals) (2 * nextPowTwo (lagCount vals maxLag)) k
    (by simpa using hk) (by simpa [lagCount] using hN)]
  unfold autocov
  rw [List.length_map]
  refine Finset.sum_congr rfl fun j hj => ?_
  rw [Finset.mem_range] at hj
  rw [List.getD_eq_getElem _ _ (show j < (vals.map fun x => x - mean vals).length by rw [List.length_map]; omega),
    List.getD_eq_getElem _ _ (show j + k < (vals.map fun x => x - mean vals).length by rw [List.length_map]; omega),
    List.getD_eq_getElem _ _ (show j < vals.length by omega), List.getD_eq_getElem _ _ (show j + k < vals.length by omega)]
  simp [mean]

/-- C34, what holds: for every series and every requested lag `k` such that the series plus the lag fits into the transform
length, entry `k` is the sample autocovariance at lag `k` over that at lag 0. -/
theorem C34_exact_partial (vals : List ℝ) (maxLag k : ℕ) (hk : k < min maxLag vals.length)
    (hN : vals.length + k ≤ 2 * nextPowTwo (min maxLag vals.length)) :
    (autocorrelation vals maxLag)[k]? = some (autocov vals k / autocov vals 0) := by
  have h0 : acfRaw vals maxLag 0 = autocov vals 0 := acfRaw_eq vals maxLag 0 (by omega) (by omega)
  have hk' : acfRaw vals maxLag k = autocov vals k := acfRaw_eq vals maxLag k (by omega) hN
  obtain ⟨m, hm⟩ : ∃ m, lagCount vals maxLag = m + 1 := ⟨lagCount vals maxLag - 1, by unfold lagCount; omega⟩
  unfold autocorrelation
  dsimp only
  rw [List.getElem?_map, List.getElem?_map, List.getElem?_range (by exact hk), hm, List.range_succ_eq_map]
  simp [h0, hk']

/-- C34: in particular for series no longer than `max_lag_eval`, at every lag below the length. -/
theorem C34_short_partial (vals : List ℝ) (maxLag k : ℕ) (hlen : vals.length ≤ maxLag) (hk : k < vals.length) :
    (autocorrelation vals maxLag)[k]? = some (autocov vals k / autocov vals 0) := by
  refine C34_exact_partial vals maxLag k (by omega) ?_
  have := le_nextPowTwo (min maxLag vals.length)
  omega

/-- C34: number of lags returned. -/
theorem C34_length (vals : List ℝ) (maxLag : ℕ) : (autocorrelation vals maxLag).length = min maxLag vals.length := by
  simp [autocorrelation, lagCount]

/-- C34, all inputs: what the unnormalised array holds is the circular autocovariance of the centred series cut or zero-padded
to `N = 2 * nextPowTwo (min max_lag len)`. -/
theorem C34_circular (vals : List ℝ) (maxLag k : ℕ) :
    let N := 2 * nextPowTwo (min maxLag vals.length)
    acfRaw vals maxLag k = ∑ j ∈ Finset.range N,
      (vals.map fun x => x - vals.sum / vals.length).getD j 0 *
      (vals.map fun x => x - vals.sum / vals.length).getD ((j + k) % N) 0 := by
  intro N
  unfold acfRaw
  dsimp only
  rw [dft_autocorr]
  have h1 : ∑ j : ZMod (2 * nextPowTwo (lagCount vals maxLag)),
        padded (2 * nextPowTwo (lagCount vals maxLag)) (vals.map fun x => x - mean vals) (j + k)
          * starRingEnd ℂ (padded (2 * nextPowTwo (lagCount vals maxLag)) (vals.map fun x => x - mean vals) j)
      = ∑ j : ZMod (2 * nextPowTwo (lagCount vals maxLag)), (fun j : ℕ =>
          (((vals.map fun x => x - vals.sum / vals.length).getD j 0 *
            (vals.map fun x => x - vals.sum / vals.length).getD ((j + k) % N) 0 : ℝ) : ℂ)) j.val := by
    refine Finset.sum_congr rfl fun j _ => ?_
    simp only [padded, Complex.conj_ofReal, mean]
    have : (j + (k : ZMod (2 * nextPowTwo (lagCount vals maxLag)))).val = (j.val + k) % N := by
      rw [ZMod.val_add, ZMod.val_natCast, Nat.add_mod_mod]; rfl
    rw [this]; push_cast; ring
  beta_reduce
  rw [h1, sum_zmod (fun j : ℕ =>
          (((vals.map fun x => x - vals.sum / vals.length).getD j 0 *
            (vals.map fun x => x - vals.sum / vals.length).getD ((j + k) % N) 0 : ℝ) : ℂ)), Complex.re_sum]
  rfl

/-- C34, what fails: for the series 1, 0, 0, 1 and two lags the lag-1 autocorrelation comes out as 0 instead of -1/4 (the
transform of length 4 wraps around). -/
theorem C34_wraps : autocorrelation [1, 0, 0, 1] 2 = [1, 0] ∧
    autocov [1, 0, 0, 1] 1 / autocov [1, 0, 0, 1] 0 = -1 / 4 := by
  have hN : 2 * nextPowTwo (min 2 [(1 : ℝ), 0, 0, 1].length) = 4 := by
    have h1 : nextPowTwoFrom 2 2 = 2 := by unfold nextPowTwoFrom; simp
    have h2 : nextPowTwoFrom 2 1 = 2 := by unfold nextPowTwoFrom; simp [h1]
    simp [nextPowTwo, h2]
  have h0 : acfRaw [1, 0, 0, 1] 2 0 = 1 := by
    rw [C34_circular, hN]
    simp [Finset.sum_range_succ]; norm_num
  have h1 : acfRaw [1, 0, 0, 1] 2 1 = 0 := by
    rw [C34_circular, hN]
    simp [Finset.sum_range_succ]; norm_num
  constructor
  · have : lagCount [(1 : ℝ), 0, 0, 1] 2 = 2 := rfl
    simp [autocorrelation, this, List.range_succ, h0, h1]
  · simp [autocov, Finset.sum_range_succ]; norm_num

/-- Non-vacuity of C34_short_partial and C34_exact_partial: four values at lag 1 with the default 1000 lags. -/
example : (autocorrelation [1, 0, 0, 1] 1000)[1]? = some (-1 / 4 : ℝ) := by
  rw [C34_short_partial _ _ _ (by simp) (by simp), C34_wraps.2]

/-! ## C35 -/

/-- Specification: `1 + 2 (ρ_1 + ... + ρ_M)`. -/
noncomputable def tau (rho : List ℝ) (M : ℕ) : ℝ := 1 + 2 * ∑ k ∈ Finset.Icc 1 M, rho.getD k 0

theorem cumsumFrom_get (l : List ℝ) : ∀ (acc : ℝ) (j : ℕ), j < l.length →
    (cumsumFrom acc l)[j]? = some (acc + ∑ k ∈ Finset.range (j + 1), l.getD k 0) := by
  induction l with
  | nil => intro acc j h; simp at h
  | cons a l ih =>
    intro acc j h
    cases j with
    | zero => simp [cumsumFrom]
    | succ j =>
      rw [cumsumFrom, List.getElem?_cons_succ, ih _ _ (by simpa using h), Finset.sum_range_succ' _ (j + 1)]
      simp only [List.getD_cons_succ, List.getD_cons_zero]
      congr 1; ring

theorem cumsumFrom_length (l : List ℝ) : ∀ acc, (cumsumFrom acc l).length = l.length := by
  induction l with
  | nil => intro acc; rfl
  | cons a l ih => intro acc; simp [cumsumFrom, ih]

theorem iatsAll_length (rho : List ℝ) : (iatsAll rho).length = rho.length - 1 := by
  simp [iatsAll, cumsumFrom_length]

theorem iatsAll_get (rho : List ℝ) (j : ℕ) (h : j + 1 < rho.length) : (iatsAll rho)[j]? = some (tau rho (j + 1)) := by
  rw [iatsAll, List.getElem?_map, cumsumFrom_get _ _ _ (by rw [List.length_tail]; omega)]
  simp only [Option.map_some, zero_add, tau, Option.some.injEq]
  congr 2
  have h1 : Finset.Icc 1 (j + 1) = (Finset.range (j + 1)).image (· + 1) := by
    ext x; simp only [Finset.mem_Icc, Finset.mem_image, Finset.mem_range]
    constructor
    · rintro ⟨a, b⟩; exact ⟨x - 1, by omega, by omega⟩
    · rintro ⟨y, hy, rfl⟩; omega
  rw [h1, Finset.sum_image (by intro a _ b _ h; simpa using h)]
  refine Finset.sum_congr rfl fun k hk => ?_
  cases rho with
  | nil => rfl
  | cons a l => simp

/-- The window rule: `M` lags are self-consistent when `M > 5 τ(M)`. -/
def SelfConsistent (rho : List ℝ) (M : ℕ) : Prop := (M : ℝ) > 5 * tau rho M

theorem argmaxBool_spec (l : List Bool) :
    (argmaxBool l < l.length ∧ l[argmaxBool l]? = some true ∧ ∀ j < argmaxBool l, l[j]? = some false) ∨
    (argmaxBool l = 0 ∧ ∀ b ∈ l, b = false) := by
  unfold argmaxBool
  cases h : l.findIdx? id with
  | none =>
    right
    rw [List.findIdx?_eq_none_iff] at h
    exact ⟨rfl, fun b hb => by simpa using h b hb⟩
  | some i =>
    left
    rw [List.findIdx?_eq_some_iff_getElem] at h
    obtain ⟨hi, h1, h2⟩ := h
    refine ⟨hi, ?_, fun j hj => ?_⟩
    · rw [Option.getD_some, List.getElem?_eq_getElem hi]; simpa using h1
    · rw [Option.getD_some] at hj
      rw [List.getElem?_eq_getElem (by omega)]
      simpa using h2 j hj

/-- C35: with the default window, the integrated autocorrelation time is `τ(M)` for the smallest self-consistent `M`; when
no available `M` is self-consistent it is `τ(1)`. -/
theorem C35_iat (rho : List ℝ) (hlen : 2 ≤ rho.length) :
    ∃ M, 1 ≤ M ∧ M < rho.length ∧ iatFrom rho none = some (tau rho M) ∧
      ((SelfConsistent rho M ∧ ∀ M', 1 ≤ M' → M' < M → ¬ SelfConsistent rho M') ∨
       (M = 1 ∧ ∀ M', 1 ≤ M' → M' < rho.length → ¬ SelfConsistent rho M')) := by
  classical
  have hl := iatsAll_length rho
  have hget : ∀ j, j + 1 < rho.length → ((List.range (iatsAll rho).length).map fun j =>
      decide ((((j + 1 : ℕ) : ℝ) - 5 * (iatsAll rho).getD j 0) > 0))[j]? = some (decide (SelfConsistent rho (j + 1))) := by
    intro j hj
    rw [List.getElem?_map, List.getElem?_range (by omega)]
    simp only [Option.map_some, Option.some.injEq, List.getD_eq_getElem?_getD, iatsAll_get rho j hj, Option.getD_some]
    exact decide_eq_decide.2 sub_pos
  have hdef : defaultLag (iatsAll rho) = argmaxBool ((List.range (iatsAll rho).length).map fun j =>
      decide ((((j + 1 : ℕ) : ℝ) - 5 * (iatsAll rho).getD j 0) > 0)) := by
    unfold defaultLag; congr
  rcases argmaxBool_spec ((List.range (iatsAll rho).length).map fun j =>
      decide ((((j + 1 : ℕ) : ℝ) - 5 * (iatsAll rho).getD j 0) > 0)) with ⟨h1, h2, h3⟩ | ⟨h1, h2⟩
  · rw [← hdef] at h1 h2 h3
    rw [List.length_map, List.length_range, hl] at h1
    refine ⟨defaultLag (iatsAll rho) + 1, by omega, by omega, ?_, Or.inl ⟨?_, ?_⟩⟩
    · simp only [iatFrom, Option.getD_none, clampIndex]
      rw [min_eq_left (by omega), iatsAll_get rho _ (by omega)]
    · rw [hget _ (by omega)] at h2
      simpa using h2
    · intro M' hM' hlt
      obtain ⟨j, rfl⟩ : ∃ j, M' = j + 1 := ⟨M' - 1, by omega⟩
      have := h3 j (by omega)
      rw [hget _ (by omega)] at this
      simpa using this
  · rw [← hdef] at h1
    refine ⟨1, le_rfl, by omega, ?_, Or.inr ⟨rfl, ?_⟩⟩
    · simp only [iatFrom, Option.getD_none, clampIndex, h1]
      rw [min_eq_left (by omega), iatsAll_get rho 0 (by omega)]
    · intro M' hM' hlt
      obtain ⟨j, rfl⟩ : ∃ j, M' = j + 1 := ⟨M' - 1, by omega⟩
      have := h2 _ (List.mem_of_getElem? (hget j hlt))
      simpa using this

/-- C35: with an explicit `max_lag_iat = m` the sum runs to lag `m + 1`. -/
theorem C35_explicit_lag (rho : List ℝ) (m : ℕ) (h : m + 1 < rho.length) :
    iatFrom rho (some m) = some (tau rho (m + 1)) := by
  have hl := iatsAll_length rho
  simp only [iatFrom, Option.getD_some, clampIndex]
  rw [min_eq_left (by omega), iatsAll_get rho _ (by omega)]

/-- C35: the effective sample size is the length of the series over that time. -/
theorem C35_ess (vals : List ℝ) (lag : Option ℕ) (maxLag : ℕ) (t : ℝ)
    (h : iatFrom (autocorrelation vals maxLag) lag = some t) :
    essAutocorrelation vals lag maxLag = some (vals.length / t) := by
  simp [essAutocorrelation, h]

/-- Non-vacuity of C35: a sequence whose first self-consistent window is 6 (all autocorrelations zero), and one with no
self-consistent window. -/
example : SelfConsistent (1 :: List.replicate 6 0) 6 ∧ ¬ SelfConsistent [1, 0.9, 0.8] 1 := by
  constructor
  · simp only [SelfConsistent, tau]
    rw [Finset.sum_eq_zero]
    · norm_num
    · intro k hk
      obtain ⟨h1, h2⟩ := Finset.mem_Icc.1 hk
      interval_cases k <;> simp
  · simp [SelfConsistent, tau]; norm_num

/-! ## C90 -/

/-- The series `x 0, ..., x n`. -/
def series (x : ℕ → ℝ) (n : ℕ) : List ℝ := List.ofFn fun i : Fin (n + 1) => x i

/-- C90: on `n + 1` states the squared jumping distance is the average of the `n` squared differences of successive states. -/
theorem C90_value (x : ℕ → ℝ) (n : ℕ) :
    squaredJumpingDistance (series x n) = (∑ i ∈ Finset.range n, (x (i + 1) - x i) ^ 2) / n := by
  have e : ((series x n).tail.zipWith (fun a b => a - b) (series x n).dropLast).map (fun s => s ^ 2)
      = List.ofFn fun i : Fin n => (x (i + 1) - x i) ^ 2 := by
    refine List.ext_getElem (by simp [series]) fun k h1 h2 => ?_
    have hl : ∀ (j : ℕ) (hj : j < (series x n).length), (series x n)[j] = x j := fun j hj =>
      List.getElem_ofFn (f := fun i : Fin (n + 1) => x i) hj
    rw [List.getElem_map, List.getElem_zipWith, List.getElem_tail, List.getElem_dropLast, hl, hl, List.getElem_ofFn]
  rw [squaredJumpingDistance, mean, e, List.length_ofFn, List.sum_ofFn, Finset.sum_range]

/-- C90: it is not negative, and zero exactly when the chain never moves. -/
theorem C90_zero_iff (x : ℕ → ℝ) (n : ℕ) (hn : 0 < n) :
    0 ≤ squaredJumpingDistance (series x n) ∧ (squaredJumpingDistance (series x n) = 0 ↔ ∀ i ≤ n, x i = x 0) := by
  rw [C90_value]
  have hs : 0 ≤ ∑ i ∈ Finset.range n, (x (i + 1) - x i) ^ 2 := Finset.sum_nonneg fun i _ => sq_nonneg _
  refine ⟨div_nonneg hs (by positivity), ?_⟩
  have hn' : (n : ℝ) ≠ 0 := by positivity
  rw [div_eq_zero_iff, or_iff_left hn', Finset.sum_eq_zero_iff_of_nonneg fun i _ => sq_nonneg _]
  constructor
  · intro h i
    induction i with
    | zero => intro _; rfl
    | succ i ih =>
      intro hi
      have := pow_eq_zero_iff two_ne_zero |>.1 (h i (Finset.mem_range.2 (by omega)))
      rw [← ih (by omega)]
      linarith
  · intro h i hi
    have := Finset.mem_range.1 hi
    rw [h (i + 1) (by omega), h i (by omega)]
    simp

/-- C90: shifting the chain does not change it, and scaling by `a` multiplies it by `a ^ 2`. -/
theorem C90_affine (x : ℕ → ℝ) (a b : ℝ) (n : ℕ) :
    squaredJumpingDistance (series (fun i => a * x i + b) n) = a ^ 2 * squaredJumpingDistance (series x n) := by
  rw [C90_value, C90_value, ← mul_div_assoc, Finset.mul_sum]
  congr 1
  exact Finset.sum_congr rfl fun i _ => by ring

/-- C90: the chain read backwards has the same value. -/
theorem C90_reverse (x : ℕ → ℝ) (n : ℕ) :
    squaredJumpingDistance (series (fun i => x (n - i)) n) = squaredJumpingDistance (series x n) := by
  rw [C90_value, C90_value, ← Finset.sum_range_reflect]
  congr 1
  refine Finset.sum_congr rfl fun i hi => ?_
  have := Finset.mem_range.1 hi
  rw [show n - (n - 1 - i + 1) = i by omega, show n - (n - 1 - i) = i + 1 by omega]
  ring

/-- Non-vacuity: the series 0, 1, 4, 9 has jumps 1, 3, 5. -/
example : squaredJumpingDistance (series (fun i => (i : ℝ) ^ 2) 3) = 35 / 3 := by
  rw [C90_value]; norm_num [Finset.sum_range_succ]

end Mocat.Props
