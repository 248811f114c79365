import Verif.Model.Bandwidth
import Verif.Props.Svgd
import Mathlib.Data.List.GetD
/-!
# C151: bandwidths follow the spread of the ensemble
-/
namespace Mocat.Props
open Mocat Mocat.Svgd Mocat.Kernels Mocat.Bandwidth

variable {n d : ℕ}

/-! ## Specification -/

/-- The values of the Gaussian kernel with bandwidth `h` at all ordered pairs of particles. -/
noncomputable def kernelValues (h : ℝ) (vals : Fin n → Fin d → ℝ) : List ℝ := (List.ofFn fun i => List.ofFn fun j => (gaussian fun _ => h).call (vals i) (vals j)).flatten

/-! ## Medians -/

theorem length_distances (vals : Fin n → Fin d → ℝ) : (distances vals).length = n ^ 2 := by
  simp [distances, List.length_flatten, List.map_ofFn, Function.comp_def, pow_two]

theorem getElem_zero_iff : ∀ {l : List ℝ}, l.Pairwise (· ≤ ·) → (∀ x ∈ l, 0 ≤ x) → ∀ i (h : i < l.length), l[i] = 0 ↔ i < l.count 0
  | [], _, _, i, h => by simp at h
  | a :: l, hp, h0, i, h => by
    rw [List.pairwise_cons] at hp
    have h0l : ∀ x ∈ l, 0 ≤ x := fun x hx => h0 x (List.mem_cons_of_mem _ hx)
    by_cases ha : a = 0
    · subst ha
      rw [List.count_cons_self]
      cases i with
      | zero => simp
      | succ i =>
        rw [List.getElem_cons_succ, getElem_zero_iff hp.2 h0l i (by simpa using h)]
        omega
    · have ha : 0 < a := lt_of_le_of_ne (h0 a List.mem_cons_self) (Ne.symm ha)
      have hc : (a :: l).count 0 = 0 := by
        refine List.count_eq_zero.2 fun hm => ?_
        rcases List.mem_cons.1 hm with e | hm
        · exact ha.ne e
        · exact absurd (hp.1 0 hm) (not_le.2 ha)
      rw [hc]
      refine iff_of_false (fun e => ?_) (by omega)
      have hm : (a :: l)[i] ∈ a :: l := List.getElem_mem h
      rw [e] at hm
      exact absurd hm (List.count_eq_zero.1 hc)

theorem median_nonneg {l : List ℝ} (h0 : ∀ x ∈ l, 0 ≤ x) : 0 ≤ median l := by
  have : ∀ i, 0 ≤ (l.insertionSort (· ≤ ·)).getD i 0 := fun i => by
    by_cases h : i < (l.insertionSort (· ≤ ·)).length
    · rw [List.getD_eq_getElem _ _ h]
      exact h0 _ ((List.perm_insertionSort _ l).mem_iff.1 (List.getElem_mem h))
    · rw [List.getD_eq_default _ _ (not_lt.1 h)]
  unfold median
  linarith [this ((l.length - 1) / 2), this (l.length / 2)]

/-- The median of nonnegative numbers is positive exactly when at most half of them are zero. -/
theorem median_pos_iff {l : List ℝ} (h0 : ∀ x ∈ l, 0 ≤ x) (hl : l ≠ []) : 0 < median l ↔ 2 * l.count 0 ≤ l.length := by
  obtain ⟨s, hs⟩ : ∃ s, s = l.insertionSort (· ≤ ·) := ⟨_, rfl⟩
  have hperm : s.Perm l := hs ▸ List.perm_insertionSort _ l
  have hsort : s.Pairwise (· ≤ ·) := hs ▸ List.pairwise_insertionSort _ l
  have hlen : s.length = l.length := hperm.length_eq
  have hpos : 0 < l.length := List.length_pos_of_ne_nil hl
  have h0s : ∀ x ∈ s, 0 ≤ x := fun x hx => h0 x (hperm.mem_iff.1 hx)
  have hi : (l.length - 1) / 2 < s.length := by omega
  have hj : l.length / 2 < s.length := by omega
  have hm : median l = (s[(l.length - 1) / 2] + s[l.length / 2]) / 2 := by
    unfold median
    rw [← hs, List.getD_eq_getElem _ _ hi, List.getD_eq_getElem _ _ hj]
  have e1 := getElem_zero_iff hsort h0s _ hi
  have e2 := getElem_zero_iff hsort h0s _ hj
  rw [hperm.count_eq] at e1 e2
  have n1 := h0s _ (List.getElem_mem hi)
  have n2 := h0s _ (List.getElem_mem hj)
  rw [hm]
  constructor
  · intro h
    by_contra hc
    have z1 := e1.2 (by omega)
    have z2 := e2.2 (by omega)
    rw [z1, z2] at h
    norm_num at h
  · intro h
    have : s[l.length / 2] ≠ 0 := fun e => by
      have := e2.1 e
      omega
    have : 0 < s[l.length / 2] := lt_of_le_of_ne n2 this.symm
    linarith

/-- At least half of the entries are at most the median, and at least half are at least the median. -/
theorem median_half (l : List ℝ) : l.length ≤ 2 * l.countP (fun x => decide (x ≤ median l)) ∧ l.length ≤ 2 * l.countP (fun x => decide (median l ≤ x)) := by
  by_cases hl : l = []
  · simp [hl]
  obtain ⟨s, hs⟩ : ∃ s, s = l.insertionSort (· ≤ ·) := ⟨_, rfl⟩
  have hperm : s.Perm l := hs ▸ List.perm_insertionSort _ l
  have hsort : s.Pairwise (· ≤ ·) := hs ▸ List.pairwise_insertionSort _ l
  have hlen : s.length = l.length := hperm.length_eq
  have hpos : 0 < l.length := List.length_pos_of_ne_nil hl
  have hi : (l.length - 1) / 2 < s.length := by omega
  have hj : l.length / 2 < s.length := by omega
  have hm : median l = (s[(l.length - 1) / 2] + s[l.length / 2]) / 2 := by
    unfold median
    rw [← hs, List.getD_eq_getElem _ _ hi, List.getD_eq_getElem _ _ hj]
  have mono : ∀ i j (h1 : i < s.length) (h2 : j < s.length), i ≤ j → s[i] ≤ s[j] := fun i j h1 h2 h => by
    rcases h.eq_or_lt with e | h
    · subst e; exact le_rfl
    · exact List.pairwise_iff_getElem.1 hsort i j h1 h2 h
  have h12 := mono _ _ hi hj (by omega)
  rw [← hperm.countP_eq, ← hperm.countP_eq]
  constructor
  · have h1 : (s.take ((l.length - 1) / 2 + 1)).countP (fun x => decide (x ≤ median l)) = (s.take ((l.length - 1) / 2 + 1)).length := by
      refine List.countP_eq_length.2 fun x hx => ?_
      obtain ⟨i, hi', rfl⟩ := List.mem_take_iff_getElem.1 hx
      rw [decide_eq_true_eq, hm]
      have := mono i _ (by omega) hi (by omega)
      linarith
    have h2 := (List.take_sublist ((l.length - 1) / 2 + 1) s).countP_le (p := fun x => decide (x ≤ median l))
    rw [h1, List.length_take] at h2
    omega
  · have h1 : (s.drop (l.length / 2)).countP (fun x => decide (median l ≤ x)) = (s.drop (l.length / 2)).length := by
      refine List.countP_eq_length.2 fun x hx => ?_
      obtain ⟨i, hi', rfl⟩ := List.mem_drop_iff_getElem.1 hx
      rw [decide_eq_true_eq, hm]
      have := mono (l.length / 2) (i + l.length / 2) hj (by omega) (by omega)
      simp only [add_comm i] at this
      linarith
    have h2 := (List.drop_sublist (l.length / 2) s).countP_le (p := fun x => decide (median l ≤ x))
    rw [h1, List.length_drop] at h2
    omega

/-! ## Distances -/

theorem count_ofFn {m : ℕ} {α : Type*} [DecidableEq α] (f : Fin m → α) (r : α) : (List.ofFn f).count r = ∑ i, if f i = r then 1 else 0 := by
  rw [List.ofFn_eq_map, List.count, List.countP_map, List.countP_eq_length_filter, ← List.sum_ofFn, List.ofFn_eq_map]
  induction List.finRange m with
  | nil => rfl
  | cons a l ih =>
    rw [List.filter_cons, List.map_cons, List.sum_cons, ← ih]
    by_cases h : f a = r
    · simp [h]; omega
    · simp [h]

theorem count_distances (vals : Fin n → Fin d → ℝ) (r : ℝ) : (distances vals).count r = ∑ i, ∑ j, if l2Distance (vals i) (vals j) = r then 1 else 0 := by
  rw [distances, List.count_flatten, List.map_ofFn, List.sum_ofFn]
  exact Finset.sum_congr rfl fun i _ => count_ofFn _ r

theorem distances_nonneg (vals : Fin n → Fin d → ℝ) : ∀ x ∈ distances vals, 0 ≤ x := by
  intro x hx
  simp only [distances, List.mem_flatten, List.mem_ofFn] at hx
  obtain ⟨l, ⟨i, rfl⟩, hx⟩ := hx
  obtain ⟨j, rfl⟩ := (List.mem_ofFn' _ _).1 hx
  exact Real.sqrt_nonneg _

theorem l2Distance_eq_zero (x y : Fin d → ℝ) : l2Distance x y = 0 ↔ x = y := by
  rw [l2Distance, Real.sqrt_eq_zero (Finset.sum_nonneg fun i _ => sq_nonneg _), Finset.sum_eq_zero_iff_of_nonneg fun i _ => sq_nonneg _]
  constructor
  · intro h
    funext i
    have := h i (Finset.mem_univ i)
    rw [pow_eq_zero_iff two_ne_zero] at this
    linarith
  · rintro rfl i -
    simp

theorem log_pos_of_two (hn : 2 ≤ n) : 0 < Real.sqrt (2 * Real.log n) := by
  apply Real.sqrt_pos.2
  have : 0 < Real.log n := Real.log_pos (by exact_mod_cast hn)
  linarith

/-! ## C151 -/

/-- C151: the bandwidth of the median rule is positive exactly when at most half of the ordered pairs of particles coincide. -/
theorem C151_median_positive_iff (hn : 2 ≤ n) (vals : Fin n → Fin d → ℝ) :
    ∃ h : ℝ, medianBandwidth vals = Fl.fin h ∧ 0 ≤ h ∧ (0 < h ↔ 2 * (Finset.univ.filter fun p : Fin n × Fin n => vals p.1 = vals p.2).card ≤ n ^ 2) := by
  have hL := log_pos_of_two hn
  refine ⟨_, if_neg hL.ne', div_nonneg (median_nonneg (distances_nonneg vals)) hL.le, ?_⟩
  have hne : distances vals ≠ [] := fun e => by
    have := length_distances vals
    rw [e] at this
    have : 0 < n ^ 2 := by positivity
    simp_all
  rw [div_pos_iff_of_pos_right hL, median_pos_iff (distances_nonneg vals) hne, length_distances, count_distances]
  have : (Finset.univ.filter fun p : Fin n × Fin n => vals p.1 = vals p.2).card = ∑ i, ∑ j, if l2Distance (vals i) (vals j) = 0 then 1 else 0 := by
    rw [Finset.card_filter, ← Finset.univ_product_univ, Finset.sum_product]
    simp only [l2Distance_eq_zero]
  rw [this]

/-- C151: in particular when all particles differ. -/
theorem C151_median_distinct_partial (hn : 2 ≤ n) (vals : Fin n → Fin d → ℝ) (hv : Function.Injective vals) : ∃ h : ℝ, medianBandwidth vals = Fl.fin h ∧ 0 < h := by
  obtain ⟨h, e, -, hp⟩ := C151_median_positive_iff hn vals
  refine ⟨h, e, hp.2 ?_⟩
  have : (Finset.univ.filter fun p : Fin n × Fin n => vals p.1 = vals p.2).card = n := by
    rw [Finset.card_filter, ← Finset.univ_product_univ, Finset.sum_product]
    simp [hv.eq_iff]
  rw [this]
  nlinarith

/-- C151, what fails: particles that are not all equal may get bandwidth 0 from the median rule (not from the mean rule): here one of four differs. -/
theorem C151_median_clones_fails : medianBandwidth (fun i (_ : Fin 1) => if i = (0 : Fin 4) then (1 : ℝ) else 0) = Fl.fin 0
    ∧ ∃ h : ℝ, 0 < h ∧ meanBandwidth (fun i (_ : Fin 1) => if i = (0 : Fin 4) then (1 : ℝ) else 0) = Fl.fin h := by
  constructor
  · obtain ⟨h, e, h0, hp⟩ := C151_median_positive_iff (by norm_num) (fun i (_ : Fin 1) => if i = (0 : Fin 4) then (1 : ℝ) else 0)
    have hc : (Finset.univ.filter fun p : Fin 4 × Fin 4 => (fun _ : Fin 1 => if p.1 = 0 then (1 : ℝ) else 0) = fun _ => if p.2 = 0 then (1 : ℝ) else 0).card = 10 := by
      have : ∀ p : Fin 4 × Fin 4, ((fun _ : Fin 1 => if p.1 = 0 then (1 : ℝ) else 0) = fun _ => if p.2 = 0 then (1 : ℝ) else 0) ↔ (p.1 = 0 ↔ p.2 = 0) := by
        intro p
        rw [funext_iff]
        by_cases h1 : p.1 = 0 <;> by_cases h2 : p.2 = 0 <;> simp [h1, h2]
      simp only [this]
      decide
    rw [hc] at hp
    rw [e]
    have : ¬ 0 < h := fun hh => by
      have := hp.1 hh
      omega
    rw [le_antisymm (not_lt.1 this) h0]
  · exact C45_default_bandwidth (by norm_num) _ 0 1 fun e => by simpa using congrFun e 0

theorem call_of_distance (h : ℝ) (x y : Fin d → ℝ) : (gaussian fun _ => h).call x y = Real.exp (-(l2Distance x y / h) ^ 2 / 2) := by
  have e : ∑ i, ((x i - y i) / h) ^ 2 = (l2Distance x y / h) ^ 2 := by
    rw [div_pow, l2Distance, Real.sq_sqrt (Finset.sum_nonneg fun i _ => sq_nonneg _), Finset.sum_div]
    exact Finset.sum_congr rfl fun i _ => by rw [div_pow]
  simp only [gaussian, e]
  congr 1
  ring

theorem kernelValues_eq (h : ℝ) (vals : Fin n → Fin d → ℝ) : kernelValues h vals = (distances vals).map fun D => Real.exp (-(D / h) ^ 2 / 2) := by
  rw [kernelValues, distances, List.map_flatten, List.map_ofFn]
  simp only [call_of_distance, Function.comp_def, List.map_ofFn]

/-- C151: with the bandwidth of the median rule the Gaussian kernel is at least `1/n` at half of the ordered pairs of the `n` particles or more, and at most `1/n` at half of them or more. -/
theorem C151_median_kernel (hn : 2 ≤ n) (vals : Fin n → Fin d → ℝ) {h : ℝ} (hh : medianBandwidth vals = Fl.fin h) (hpos : 0 < h) :
    n ^ 2 ≤ 2 * (kernelValues h vals).countP (fun k => decide (1 / (n : ℝ) ≤ k)) ∧ n ^ 2 ≤ 2 * (kernelValues h vals).countP (fun k => decide (k ≤ 1 / (n : ℝ))) := by
  have hL := log_pos_of_two hn
  have hn0 : (0 : ℝ) < n := by exact_mod_cast (by omega : 0 < n)
  have hlog : 0 < Real.log n := Real.log_pos (by exact_mod_cast hn)
  have he : h = median (distances vals) / Real.sqrt (2 * Real.log n) := by
    have : medianBandwidth vals = Fl.fin (median (distances vals) / Real.sqrt (2 * Real.log n)) := if_neg hL.ne'
    rw [hh] at this
    exact Fl.fin.inj this
  have hm : median (distances vals) = h * Real.sqrt (2 * Real.log n) := by
    rw [he]
    field_simp
  have hexp : (1 : ℝ) / n = Real.exp (-(median (distances vals) / h) ^ 2 / 2) := by
    rw [hm, mul_div_cancel_left₀ _ hpos.ne', Real.sq_sqrt (by positivity), show -(2 * Real.log n) / 2 = -Real.log n by ring, Real.exp_neg, Real.exp_log hn0, one_div]
  have h1 := median_half (distances vals)
  rw [length_distances] at h1
  have hm0 : 0 ≤ median (distances vals) := median_nonneg (distances_nonneg vals)
  have key : ∀ a b : ℝ, 0 ≤ a → 0 ≤ b → (Real.exp (-(b / h) ^ 2 / 2) ≤ Real.exp (-(a / h) ^ 2 / 2) ↔ a ≤ b) := by
    intro a b ha hb
    rw [Real.exp_le_exp]
    constructor
    · intro h2
      have h3 : (a / h) ^ 2 ≤ (b / h) ^ 2 := by linarith
      have h4 := (sq_le_sq₀ (by positivity) (by positivity)).1 h3
      exact (div_le_div_iff_of_pos_right hpos).1 h4
    · intro h2
      have h3 : (a / h) ^ 2 ≤ (b / h) ^ 2 := by gcongr
      linarith
  rw [kernelValues_eq, List.countP_map, List.countP_map, hexp]
  constructor
  · refine h1.1.trans (Nat.mul_le_mul_left 2 (List.countP_mono_left fun D hD hd => ?_))
    rw [decide_eq_true_eq] at hd
    simpa using (key D _ (distances_nonneg vals D hD) hm0).2 hd
  · refine h1.2.trans (Nat.mul_le_mul_left 2 (List.countP_mono_left fun D hD hd => ?_))
    rw [decide_eq_true_eq] at hd
    simpa using (key _ D hm0 (distances_nonneg vals D hD)).2 hd

/-- C151: with the bandwidth of the mean rule, the root of `-2 log k` averages to that of the kernel value `1/n` over all ordered pairs. -/
theorem C151_mean_kernel (hn : 2 ≤ n) (vals : Fin n → Fin d → ℝ) {h : ℝ} (hh : meanBandwidth vals = Fl.fin h) (hpos : 0 < h) :
    (∑ i, ∑ j, Real.sqrt (-2 * Real.log ((gaussian fun _ => h).call (vals i) (vals j)))) / (n : ℝ) ^ 2 = Real.sqrt (-2 * Real.log (1 / n)) := by
  have hL := log_pos_of_two hn
  have hn0 : (0 : ℝ) < n := by exact_mod_cast (by omega : 0 < n)
  have he : h = (∑ i, ∑ j, l2Distance (vals i) (vals j)) / (n : ℝ) ^ 2 / Real.sqrt (2 * Real.log n) := by
    have : meanBandwidth vals = Fl.fin ((∑ i, ∑ j, l2Distance (vals i) (vals j)) / (n : ℝ) ^ 2 / Real.sqrt (2 * Real.log n)) := if_neg hL.ne'
    rw [hh] at this
    exact Fl.fin.inj this
  have e1 : ∀ i j, Real.sqrt (-2 * Real.log ((gaussian fun _ => h).call (vals i) (vals j))) = l2Distance (vals i) (vals j) / h := fun i j => by
    rw [call_of_distance, Real.log_exp, show -2 * (-(l2Distance (vals i) (vals j) / h) ^ 2 / 2) = (l2Distance (vals i) (vals j) / h) ^ 2 by ring,
      Real.sqrt_sq (div_nonneg (show 0 ≤ l2Distance (vals i) (vals j) from Real.sqrt_nonneg _) hpos.le)]
  simp only [e1]
  have e2 : ∑ i, ∑ j, l2Distance (vals i) (vals j) / h = (∑ i, ∑ j, l2Distance (vals i) (vals j)) / h := by
    rw [Finset.sum_div]
    exact Finset.sum_congr rfl fun i _ => by rw [Finset.sum_div]
  rw [e2, Real.log_div one_ne_zero hn0.ne', Real.log_one, zero_sub, mul_neg, neg_mul, neg_neg]
  have e3 : (∑ i, ∑ j, l2Distance (vals i) (vals j)) = h * Real.sqrt (2 * Real.log n) * (n : ℝ) ^ 2 := by
    rw [he]
    field_simp
  rw [e3]
  field_simp

theorem l2Distance_affine (a : ℝ) (b x y : Fin d → ℝ) : l2Distance (fun c => a * x c + b c) (fun c => a * y c + b c) = |a| * l2Distance x y := by
  rw [l2Distance, l2Distance, ← Real.sqrt_sq_eq_abs, ← Real.sqrt_mul (sq_nonneg a), Finset.mul_sum]
  congr 1
  exact Finset.sum_congr rfl fun i _ => by ring

theorem median_scale {c : ℝ} (hc : 0 < c) (l : List ℝ) : median (l.map fun x => c * x) = c * median l := by
  have hs : (l.map fun x => c * x).insertionSort (· ≤ ·) = (l.insertionSort (· ≤ ·)).map fun x => c * x :=
    (List.map_insertionSort (· ≤ ·) (· ≤ ·) (fun x => c * x) l fun a _ b _ => (mul_le_mul_iff_right₀ hc).symm).symm
  have hg : ∀ i, ((l.insertionSort (· ≤ ·)).map fun x => c * x).getD i 0 = c * (l.insertionSort (· ≤ ·)).getD i 0 := fun i => by
    have := List.getD_map (l := l.insertionSort (· ≤ ·)) (d := (0 : ℝ)) (n := i) (fun x => c * x)
    rwa [mul_zero] at this
  unfold median
  rw [hs, hg, hg, List.length_map]
  ring

/-- C151: moving all particles, or reflecting or stretching the ensemble, scales both bandwidths like the distances. -/
theorem C151_similarity (hn : 2 ≤ n) (vals : Fin n → Fin d → ℝ) {a : ℝ} (ha : a ≠ 0) (b : Fin d → ℝ) :
    (∃ h, medianBandwidth vals = Fl.fin h ∧ medianBandwidth (fun i c => a * vals i c + b c) = Fl.fin (|a| * h)) ∧
    ∃ h, meanBandwidth vals = Fl.fin h ∧ meanBandwidth (fun i c => a * vals i c + b c) = Fl.fin (|a| * h) := by
  have hL := log_pos_of_two hn
  constructor
  · refine ⟨_, if_neg hL.ne', ?_⟩
    refine (if_neg hL.ne' : medianBandwidth _ = _).trans ?_
    have : distances (fun i c => a * vals i c + b c) = (distances vals).map fun x => |a| * x := by
      rw [distances, distances, List.map_flatten, List.map_ofFn]
      simp only [Function.comp_def, List.map_ofFn, l2Distance_affine]
    rw [this, median_scale (abs_pos.2 ha), mul_div_assoc]
  · refine ⟨_, if_neg hL.ne', ?_⟩
    refine (if_neg hL.ne' : meanBandwidth _ = _).trans ?_
    have : ∑ i, ∑ j, l2Distance (fun c => a * vals i c + b c) (fun c => a * vals j c + b c) = |a| * ∑ i, ∑ j, l2Distance (vals i) (vals j) := by
      simp only [l2Distance_affine, Finset.mul_sum]
    rw [this, mul_div_assoc, mul_div_assoc]

/-- C151: neither depends on the order of the particles. -/
theorem C151_order (vals : Fin n → Fin d → ℝ) (π : Equiv.Perm (Fin n)) : medianBandwidth (vals ∘ π) = medianBandwidth vals ∧ meanBandwidth (vals ∘ π) = meanBandwidth vals := by
  refine ⟨?_, meanBandwidth_perm vals π⟩
  have hp : (distances (vals ∘ π)).Perm (distances vals) := by
    classical
    refine List.perm_iff_count.2 fun r => ?_
    rw [count_distances, count_distances, ← Equiv.sum_comp π (fun i => ∑ j, if l2Distance (vals i) (vals j) = r then 1 else 0)]
    exact Finset.sum_congr rfl fun i _ => Equiv.sum_comp π (fun j => if l2Distance (vals (π i)) (vals j) = r then 1 else 0)
  have hs : (distances (vals ∘ π)).insertionSort (· ≤ ·) = (distances vals).insertionSort (· ≤ ·) :=
    ((List.perm_insertionSort _ _).trans (hp.trans (List.perm_insertionSort _ _).symm)).eq_of_pairwise (fun _ _ _ _ h1 h2 => le_antisymm h1 h2) (List.pairwise_insertionSort _ _) (List.pairwise_insertionSort _ _)
  unfold medianBandwidth median
  rw [hs, hp.length_eq]

/-- Non-vacuity: three particles on a line. -/
example : ∃ h : ℝ, medianBandwidth (fun (i : Fin 3) (_ : Fin 1) => (i : ℝ)) = Fl.fin h ∧ 0 < h ∧ 3 ^ 2 ≤ 2 * (kernelValues h fun (i : Fin 3) (_ : Fin 1) => (i : ℝ)).countP (fun k => decide (1 / ((3 : ℕ) : ℝ) ≤ k)) := by
  obtain ⟨h, e, hp⟩ := C151_median_distinct_partial (n := 3) (by norm_num) (fun (i : Fin 3) (_ : Fin 1) => (i : ℝ)) fun i j hij => by
    have : ((i : ℕ) : ℝ) = ((j : ℕ) : ℝ) := congrFun hij 0
    exact Fin.ext (by exact_mod_cast this)
  exact ⟨h, e, hp, (C151_median_kernel (by norm_num) _ e hp).1⟩

end Mocat.Props
