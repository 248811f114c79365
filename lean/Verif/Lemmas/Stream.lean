import Mathlib.Probability.ProductMeasure
/-! An infinite stream of independent draws: head and tail are independent, the tail has the law of the
stream. Used to show that the key assumptions of the invariance theorems can be met. -/
namespace Mocat.Meas
open MeasureTheory Set

variable {X : Type*} [MeasurableSpace X]

/-- prepend a draw -/
def consStream (z : X × (ℕ → X)) : ℕ → X
  | 0 => z.1
  | n + 1 => z.2 n

theorem measurable_consStream : Measurable (consStream (X := X)) := by
  refine measurable_pi_lambda _ fun n => ?_
  cases n with
  | zero => exact measurable_fst
  | succ n => exact (measurable_pi_apply n).comp measurable_snd

theorem stream_map (mu : Measure X) [IsProbabilityMeasure mu] :
    (Measure.infinitePi fun _ : ℕ => mu).map (fun k => (k 0, fun n => k (n + 1)))
      = mu.prod (Measure.infinitePi fun _ : ℕ => mu) := by
  have h : (mu.prod (Measure.infinitePi fun _ : ℕ => mu)).map consStream
      = Measure.infinitePi fun _ : ℕ => mu := by
    refine Measure.eq_infinitePi _ fun s t ht => ?_
    classical
    rw [Measure.map_apply measurable_consStream
      (MeasurableSet.pi s.countable_toSet fun i _ => ht i)]
    have e : consStream ⁻¹' (Set.pi s t)
        = (if 0 ∈ s then t 0 else univ) ×ˢ (Set.pi (((s.erase 0).image Nat.pred : Finset ℕ) : Set ℕ) fun n => t (n + 1)) := by
      ext z
      simp only [mem_preimage, Set.mem_pi, Finset.mem_coe, mem_prod, Finset.mem_image, Finset.mem_erase]
      constructor
      · intro h
        refine ⟨?_, ?_⟩
        · split_ifs with h0
          · exact h 0 h0
          · exact mem_univ _
        · rintro n ⟨m, ⟨hm0, hm⟩, rfl⟩
          obtain ⟨j, rfl⟩ := Nat.exists_eq_succ_of_ne_zero hm0
          exact h _ hm
      · rintro ⟨h0, h1⟩ i hi
        cases i with
        | zero => rw [if_pos hi] at h0; exact h0
        | succ n => exact h1 n ⟨n + 1, ⟨Nat.succ_ne_zero _, hi⟩, rfl⟩
    rw [e, Measure.prod_prod, Measure.infinitePi_pi _ (fun i _ => ht (i + 1))]
    have hinj : Set.InjOn Nat.pred (s.erase 0 : Finset ℕ) := by
      intro a ha b hb hab
      have ha := (Finset.mem_erase.mp ha).1
      have hb := (Finset.mem_erase.mp hb).1
      simp only [Nat.pred_eq_sub_one] at hab
      omega
    rw [Finset.prod_image hinj]
    have e2 : ∏ i ∈ s.erase 0, mu (t (Nat.pred i + 1)) = ∏ i ∈ s.erase 0, mu (t i) := by
      refine Finset.prod_congr rfl fun i hi => ?_
      have := (Finset.mem_erase.mp hi).1
      rw [show Nat.pred i + 1 = i by simp only [Nat.pred_eq_sub_one]; omega]
    rw [e2]
    by_cases h0 : 0 ∈ s
    · rw [if_pos h0, Finset.mul_prod_erase s (fun i => mu (t i)) h0]
    · rw [if_neg h0, measure_univ, one_mul, Finset.erase_eq_of_notMem h0]
  conv_lhs => rw [← h]
  rw [Measure.map_map (by fun_prop) measurable_consStream]
  exact Measure.map_id

end Mocat.Meas
