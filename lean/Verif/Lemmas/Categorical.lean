import Verif.Lemmas.Tape
/-! Categorical draws exist: selection by the cumulative weights. -/
namespace Mocat.Ideal
open MeasureTheory Mocat.Meas
open scoped ENNReal

variable {N : ℕ}

/-- The sum of the first `n` weights. -/
noncomputable def cum (w : Fin N → ℝ) (n : ℕ) : ℝ := ∑ k : Fin N, if (k : ℕ) < n then w k else 0

theorem cum_mono {w : Fin N → ℝ} (hw : ∀ k, 0 ≤ w k) : Monotone (cum w) := by
  intro a b h
  refine Finset.sum_le_sum fun k _ => ?_
  by_cases h1 : (k : ℕ) < a
  · rw [if_pos h1, if_pos (by omega)]
  · rw [if_neg h1]; split_ifs
    · exact hw k
    · exact le_rfl

theorem cum_zero (w : Fin N → ℝ) : cum w 0 = 0 := by simp [cum]

theorem cum_all (w : Fin N → ℝ) : cum w N = ∑ k, w k := by
  refine Finset.sum_congr rfl fun k _ => if_pos k.2

theorem cum_succ (w : Fin N → ℝ) (j : Fin N) : cum w (j + 1) = cum w j + w j := by
  have : w j = ∑ k : Fin N, if k = j then w k else 0 := by simp
  rw [this, cum, cum, ← Finset.sum_add_distrib]
  refine Finset.sum_congr rfl fun k _ => ?_
  by_cases h : k = j
  · subst h; simp
  · have : (k : ℕ) ≠ j := fun e => h (Fin.ext e)
    by_cases h2 : (k : ℕ) < j
    · rw [if_pos (by omega), if_pos h2, if_neg h]; simp
    · rw [if_neg (by omega), if_neg h2, if_neg h]; simp

/-- The first index whose cumulative weight exceeds `x`, else the last. -/
noncomputable def firstAbove [NeZero N] (w : Fin N → ℝ) (x : ℝ) : Fin N :=
  open Classical in
  if h : (Finset.univ.filter fun j : Fin N => x < cum w (j + 1)).Nonempty then (Finset.univ.filter fun j : Fin N => x < cum w (j + 1)).min' h
  else ⟨N - 1, Nat.sub_lt (Nat.pos_of_ne_zero (NeZero.ne N)) one_pos⟩

theorem firstAbove_eq_iff [NeZero N] {w : Fin N → ℝ} (hw : ∀ k, 0 ≤ w k) {x : ℝ} (hx0 : 0 ≤ x) (hx : x < ∑ k, w k) (j : Fin N) :
    firstAbove w x = j ↔ cum w j ≤ x ∧ x < cum w (j + 1) := by
  classical
  have hne : (Finset.univ.filter fun j : Fin N => x < cum w (j + 1)).Nonempty := by
    refine ⟨⟨N - 1, Nat.sub_lt (Nat.pos_of_ne_zero (NeZero.ne N)) one_pos⟩, Finset.mem_filter.mpr ⟨Finset.mem_univ _, ?_⟩⟩
    have : N - 1 + 1 = N := Nat.succ_pred_eq_of_ne_zero (NeZero.ne N)
    simp only [this, cum_all]; exact hx
  have hdef : firstAbove w x = (Finset.univ.filter fun j : Fin N => x < cum w (j + 1)).min' hne := by
    unfold firstAbove
    rw [dif_pos hne]
  have hmem : x < cum w (firstAbove w x + 1) := by
    have := (Finset.mem_filter.mp (Finset.min'_mem _ hne)).2
    rw [hdef]; exact this
  have hlow : cum w (firstAbove w x) ≤ x := by
    by_contra hc
    rw [not_le] at hc
    have hpos : 0 < (firstAbove w x : ℕ) := by
      rcases Nat.eq_zero_or_pos (firstAbove w x : ℕ) with h | h
      · rw [h, cum_zero] at hc; exact absurd hc (not_lt.mpr hx0)
      · exact h
    let i : Fin N := ⟨(firstAbove w x : ℕ) - 1, by omega⟩
    have hi : i ∈ Finset.univ.filter fun j : Fin N => x < cum w (j + 1) := by
      refine Finset.mem_filter.mpr ⟨Finset.mem_univ _, ?_⟩
      have : (i : ℕ) + 1 = firstAbove w x := by simp only [i]; omega
      rw [this]; exact hc
    have h1 := Finset.min'_le _ i hi
    rw [← hdef] at h1
    have : (firstAbove w x : ℕ) ≤ (firstAbove w x : ℕ) - 1 := h1
    omega
  constructor
  · rintro rfl; exact ⟨hlow, hmem⟩
  · rintro ⟨h1, h2⟩
    rcases lt_trichotomy (firstAbove w x) j with h | h | h
    · exact absurd (hmem.trans_le (cum_mono hw (show (firstAbove w x : ℕ) + 1 ≤ j from h))) (not_lt.mpr h1)
    · exact h
    · exact absurd (h2.trans_le (cum_mono hw (show (j : ℕ) + 1 ≤ firstAbove w x from h))) (not_lt.mpr hlow)

theorem measurable_cum (n : ℕ) : Measurable fun w : Fin N → ℝ => cum w n := by
  unfold cum
  refine Finset.measurable_sum _ fun k _ => ?_
  split_ifs
  · exact measurable_pi_apply k
  · exact measurable_const

theorem measurable_firstAbove₂ [NeZero N] : Measurable fun z : (Fin N → ℝ) × ℝ => firstAbove z.1 z.2 := by
  classical
  have h : (fun z : (Fin N → ℝ) × ℝ => firstAbove z.1 z.2) = (fun s : Finset (Fin N) => if h : s.Nonempty then s.min' h else ⟨N - 1, Nat.sub_lt (Nat.pos_of_ne_zero (NeZero.ne N)) one_pos⟩) ∘
      fun z : (Fin N → ℝ) × ℝ => Finset.univ.filter fun j : Fin N => z.2 < cum z.1 (j + 1) := by
    funext x
    unfold firstAbove
    simp only [Function.comp_apply]
  let _ : MeasurableSpace (Finset (Fin N)) := ⊤
  have : MeasurableSingletonClass (Finset (Fin N)) := ⟨fun _ => trivial⟩
  rw [h]
  refine (measurable_from_top).comp ?_
  refine measurable_to_countable' fun s => ?_
  have : (fun z : (Fin N → ℝ) × ℝ => Finset.univ.filter fun j : Fin N => z.2 < cum z.1 (j + 1)) ⁻¹' {s} = ⋂ j : Fin N, {z | (z.2 < cum z.1 (j + 1)) ↔ j ∈ s} := by
    ext x
    simp only [Set.mem_preimage, Set.mem_singleton_iff, Set.mem_iInter, Set.mem_ofPred_eq, Finset.ext_iff, Finset.mem_filter, Finset.mem_univ, true_and]
  rw [this]
  refine MeasurableSet.iInter fun j => ?_
  have hc : Measurable fun z : (Fin N → ℝ) × ℝ => cum z.1 (j + 1) := (measurable_cum _).comp measurable_fst
  by_cases hj : j ∈ s
  · simp only [hj, iff_true]; exact measurableSet_lt measurable_snd hc
  · simp only [hj, iff_false, not_lt]; exact measurableSet_le hc measurable_snd

theorem measurable_firstAbove [NeZero N] (w : Fin N → ℝ) : Measurable (firstAbove w) :=
  measurable_firstAbove₂.comp (measurable_const.prodMk measurable_id)

/-- The weight of a log weight, `0` if not a finite exponential. -/
noncomputable def weightOf (l : Fl) : ℝ := match Fl.exp l with | .fin x => x | _ => 0

theorem weightOf_nonneg (l : Fl) : 0 ≤ weightOf l := by
  cases l with
  | nan => simp [weightOf, Fl.exp]
  | ninf => simp [weightOf, Fl.exp]
  | fin x => simp [weightOf, Fl.exp]; exact (Real.exp_pos x).le
  | pinf => simp [weightOf, Fl.exp]

/-- A categorical draw by inversion. -/
noncomputable def invCdf [NeZero N] (lw : Fin N → Fl) (u : ℝ) : Fin N := firstAbove (fun j => weightOf (lw j)) (u * ∑ j, weightOf (lw j))

/-- Draws as required by `IsCategorical` exist. -/
theorem isCategorical_invCdf [NeZero N] : IsCategorical (invCdf (N := N)) where
  measurable lw := (measurable_firstAbove _).comp (measurable_id.mul_const _)
  prob lw w hw hpos j := by
    have hw' : (fun j => weightOf (lw j)) = w := by
      funext j; simp only [weightOf, hw j]
    have hn : ∀ k, 0 ≤ w k := fun k => by rw [← hw']; exact weightOf_nonneg _
    have hm : MeasurableSet {u | invCdf lw u = j} := ((measurable_firstAbove _).comp (measurable_id.mul_const _)) (measurableSet_singleton j)
    have e : {u | invCdf lw u = j} ∩ Set.Ico 0 1 = Set.Ico (cum w j / ∑ k, w k) (cum w (j + 1) / ∑ k, w k) := by
      ext u
      simp only [Set.mem_inter_iff, Set.mem_ofPred_eq, Set.mem_Ico, invCdf, hw']
      rw [div_le_iff₀ hpos, lt_div_iff₀ hpos]
      constructor
      · rintro ⟨h1, h2, h3⟩
        exact (firstAbove_eq_iff hn (mul_nonneg h2 hpos.le) (by nlinarith) j).mp h1
      · rintro ⟨h1, h2⟩
        have h0 : 0 ≤ u * ∑ k, w k := le_trans (by rw [← cum_zero w]; exact cum_mono hn (Nat.zero_le _)) h1
        have h4 : u * ∑ k, w k < ∑ k, w k := h2.trans_le (by rw [← cum_all w]; exact cum_mono hn j.2)
        refine ⟨(firstAbove_eq_iff hn h0 h4 j).mpr ⟨h1, h2⟩, ?_, ?_⟩
        · by_contra hneg; nlinarith
        · by_contra hge; nlinarith
    rw [unif, Measure.restrict_apply hm, e, Real.volume_Ico, cum_succ]
    congr 1
    field_simp
    ring

/-- The same for finite log weights. -/
noncomputable def invCdfReal [NeZero N] (lw : Fin N → ℝ) (u : ℝ) : Fin N := firstAbove (fun j => Real.exp (lw j)) (u * ∑ j, Real.exp (lw j))

theorem isCategoricalReal_invCdfReal [NeZero N] : IsCategoricalReal (invCdfReal (N := N)) where
  measurable := by
    have h : Measurable fun z : (Fin N → ℝ) × ℝ => ((fun j => Real.exp (z.1 j), z.2 * ∑ j, Real.exp (z.1 j)) : (Fin N → ℝ) × ℝ) := by fun_prop
    exact measurable_firstAbove₂.comp h
  prob lw j := by
    have h := isCategorical_invCdf.prob (fun j => Fl.fin (lw j)) (fun j => Real.exp (lw j)) (fun j => rfl)
      (Finset.sum_pos (fun j _ => Real.exp_pos _) ⟨0, Finset.mem_univ 0⟩) j
    exact h

end Mocat.Ideal
