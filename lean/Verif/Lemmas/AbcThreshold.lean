import Verif.Lemmas.AliveAdaptiveRun
import Verif.Props.AbcSmc
/-! Thresholds that are quantiles of the distances. -/
namespace Mocat.Props
open Mocat Mocat.Abc Mocat.AbcSmc Mocat.Alive Mocat.Ideal MeasureTheory

variable {n : ℕ}

theorem card_sorted_le (v : Fin n → ℝ) (t : ℝ) : (Finset.univ.filter fun i => v i ≤ t).card = (Finset.univ.filter fun j => sorted v j ≤ t).card := by
  symm
  apply Finset.card_bij (fun j _ => Tuple.sort v j)
  · intro j hj
    exact Finset.mem_filter.mpr ⟨Finset.mem_univ _, (Finset.mem_filter.mp hj).2⟩
  · intro a _ b _ h; exact (Tuple.sort v).injective h
  · intro i hi
    refine ⟨(Tuple.sort v).symm i, Finset.mem_filter.mpr ⟨Finset.mem_univ _, ?_⟩, by simp⟩
    have := (Finset.mem_filter.mp hi).2
    simpa [sorted] using this

theorem sorted_le_iff (v : Fin n → ℝ) (t : ℝ) (j : Fin n) : sorted v j ≤ t ↔ (j : ℕ) < (Finset.univ.filter fun i => v i ≤ t).card := by
  constructor
  · intro h
    rw [card_sorted_le]
    have h1 : (Finset.univ.filter fun k : Fin n => (k : ℕ) < j + 1) ⊆ Finset.univ.filter fun k => sorted v k ≤ t := by
      intro k hk
      refine Finset.mem_filter.mpr ⟨Finset.mem_univ _, (sorted_mono v ?_).trans h⟩
      have := (Finset.mem_filter.mp hk).2
      rw [Fin.le_def]
      omega
    have h2 := Finset.card_le_card h1
    rw [card_fin_lt _ j.2] at h2
    omega
  · intro h
    exact sorted_le_of_count v t _ (fun i hi => (Finset.mem_filter.mp hi).2) j h

/-- How many entries are at most a quantile. -/
theorem quantile_lower [NeZero n] (v : Fin n → ℝ) {q : ℝ} (h0 : 0 ≤ q) (h1 : q ≤ 1) : q * ((n : ℝ) - 1) ≤ (Finset.univ.filter fun i => v i ≤ quantile v q).card := by
  have h2 := (sorted_le_iff v _ _).1 (quantile_bounds v h0 h1).1
  rw [clampIdx_val (quantile_pos h0 h1).2.1] at h2
  have h3 := Nat.lt_floor_add_one (q * ((n : ℝ) - 1))
  have h4 : ((⌊q * ((n : ℝ) - 1)⌋₊ + 1 : ℕ) : ℝ) ≤ (Finset.univ.filter fun i => v i ≤ quantile v q).card := by exact_mod_cast h2
  push_cast at h4
  linarith

/-- How many entries are below a quantile. -/
theorem quantile_upper [NeZero n] (v : Fin n → ℝ) {q : ℝ} (h0 : 0 ≤ q) (h1 : q ≤ 1) : ((Finset.univ.filter fun i => v i < quantile v q).card : ℝ) ≤ q * ((n : ℝ) - 1) + 1 := by
  have h2 := C61_at_most q h0 h1 v
  rw [accepted_eq] at h2
  have h3 : ((Finset.univ.filter fun i => v i < quantile v q).card : ℝ) ≤ (⌈q * ((n : ℝ) - 1)⌉₊ : ℝ) := by exact_mod_cast h2
  exact h3.trans (Nat.ceil_lt_add_one (quantile_pos (n := n) h0 h1).1).le

variable {Z : Type*}

/-- The first threshold. -/
noncomputable def firstThr [NeZero n] (dist : Z → ℝ) (ρ : ℝ) (z : Fin n → Z) : ℝ := quantile (fun i => dist (z i)) (ρ * n / n)

/-- The next threshold, kept from rising. -/
noncomputable def nextThr [NeZero n] (dist : Z → ℝ) (ρ : ℝ) (t : ℝ) (z : Fin n → Z) : ℝ := min t (quantile (fun i => dist (z i)) (ρ * (pat (upTo dist t) z).card / n))

theorem pat_card (A : Set Z) (z : Fin n → Z) : ((pat A z).card : ℝ) ≤ n := by
  have := Finset.card_le_univ (pat A z)
  rw [Fintype.card_fin] at this
  exact_mod_cast this

theorem pat_upTo (dist : Z → ℝ) (t : ℝ) (z : Fin n → Z) : pat (upTo dist t) z = Finset.univ.filter fun i => dist (z i) ≤ t := by
  ext i
  rw [mem_pat, Finset.mem_filter]
  exact ⟨fun h => ⟨Finset.mem_univ _, h⟩, fun h => h.2⟩

theorem pat_lt (dist : Z → ℝ) (t : ℝ) (z : Fin n → Z) : pat {x | dist x < t} z = Finset.univ.filter fun i => dist (z i) < t := by
  ext i
  rw [mem_pat, Finset.mem_filter]
  exact ⟨fun h => ⟨Finset.mem_univ _, h⟩, fun h => h.2⟩

variable [MeasurableSpace Z]

theorem measurable_sorted {dist : Z → ℝ} (hd : Measurable dist) (j : Fin n) : Measurable fun z : Fin n → Z => sorted (fun i => dist (z i)) j := by
  refine measurable_of_Iic fun a => ?_
  have e : (fun z : Fin n → Z => sorted (fun i => dist (z i)) j) ⁻¹' Set.Iic a = {z | (j : ℕ) < (pat (upTo dist a) z).card} := by
    ext z
    rw [Set.mem_preimage, Set.mem_Iic, sorted_le_iff, Set.mem_ofPred_eq, pat_upTo]
  have hm : Measurable fun z : Fin n → Z => (pat (upTo dist a) z).card :=
    measurable_of_upTo (g := fun S (_ : Fin n → Z) => S.card) hd (measurable_const (a := a)) measurable_id fun S => measurable_const
  rw [e]
  exact measurableSet_lt measurable_const hm

theorem measurable_quantile [NeZero n] {dist : Z → ℝ} (hd : Measurable dist) (q : ℝ) : Measurable fun z : Fin n → Z => quantile (fun i => dist (z i)) q := by
  unfold quantile
  exact ((measurable_sorted hd _).mul_const _).add ((measurable_sorted hd _).mul_const _)

/-- The thresholds of the adaptive sampler retain about the share `ρ`. -/
theorem nextLaw [NeZero n] {dist : Z → ℝ} (hd : Measurable dist) {ρ : ℝ} (h0 : 0 ≤ ρ) (h1 : ρ ≤ 1) : NextLaw dist ρ (firstThr (n := n) dist ρ) (nextThr (n := n) dist ρ) := by
  have hn : (0 : ℝ) < n := by exact_mod_cast NeZero.pos n
  have hpos : ∀ c : ℝ, ρ * c / n * ((n : ℝ) - 1) = ρ * c - ρ * c / n := fun c => by field_simp
  have hr : ∀ c : ℝ, 0 ≤ c → c ≤ n → 0 ≤ ρ * c / n ∧ ρ * c / n ≤ 1 := fun c hc hcn => ⟨by positivity, by
    rw [div_le_one hn]
    nlinarith⟩
  have hlow : ∀ (c : ℝ), 0 ≤ c → c ≤ n → ∀ z : Fin n → Z, ρ * c - 1 ≤ (Finset.univ.filter fun i => dist (z i) ≤ quantile (fun i => dist (z i)) (ρ * c / n)).card := fun c hc hcn z => by
    have h2 := quantile_lower (fun i => dist (z i)) (hr c hc hcn).1 (hr c hc hcn).2
    rw [hpos] at h2
    linarith [(hr c hc hcn).2]
  have hup : ∀ (c : ℝ), 0 ≤ c → c ≤ n → ∀ z : Fin n → Z, ((Finset.univ.filter fun i => dist (z i) < quantile (fun i => dist (z i)) (ρ * c / n)).card : ℝ) ≤ ρ * c + 1 := fun c hc hcn z => by
    have h2 := quantile_upper (fun i => dist (z i)) (hr c hc hcn).1 (hr c hc hcn).2
    rw [hpos] at h2
    linarith [(hr c hc hcn).1]
  refine ⟨measurable_quantile hd _, ?_, fun t z => min_le_left _ _, fun z => ?_, fun z => ?_, fun t z => ?_, fun t z => ?_⟩
  · have hm := measurable_of_upTo (t := fun w : ℝ × (Fin n → Z) => w.1) (z := fun w => w.2) (g := fun S w => min w.1 (quantile (fun i => dist (w.2 i)) (ρ * S.card / n))) hd measurable_fst measurable_snd
      fun S => measurable_fst.min ((measurable_quantile hd _).comp measurable_snd)
    exact hm
  · rw [pat_upTo]
    exact hlow n hn.le le_rfl z
  · rw [pat_lt]
    exact hup n hn.le le_rfl z
  · have hc := pat_card (upTo dist t) z
    have h2 := hlow _ (Nat.cast_nonneg _) hc z
    unfold nextThr
    rcases le_total t (quantile (fun i => dist (z i)) (ρ * (pat (upTo dist t) z).card / n)) with h | h
    · rw [min_eq_left h]
      have h3 : (0 : ℝ) ≤ (pat (upTo dist t) z).card := Nat.cast_nonneg _
      nlinarith
    · rw [min_eq_right h, pat_upTo dist (quantile _ _)]
      exact h2
  · have hc := pat_card (upTo dist t) z
    have h2 := hup _ (Nat.cast_nonneg _) hc z
    refine le_trans ?_ h2
    rw [pat_lt]
    have h3 : (Finset.univ.filter fun i => dist (z i) < nextThr dist ρ t z) ⊆ Finset.univ.filter fun i => dist (z i) < quantile (fun i => dist (z i)) (ρ * (pat (upTo dist t) z).card / n) := fun i hi =>
      Finset.mem_filter.2 ⟨Finset.mem_univ _, lt_of_lt_of_le (Finset.mem_filter.1 hi).2 (min_le_right _ _)⟩
    exact_mod_cast Finset.card_le_card h3

end Mocat.Props
