import Verif.Lemmas.Bfgs
/-!
# C29, C30, C31: L-BFGS factors
-/
namespace Mocat.Props
open Matrix Mocat.Bfgs

variable {d : ℕ}

/-- C29: `bfgs_sqrt_prod` and `bfgs_sqrt_transpose_prod` are adjoint, for every memory length, dimension and diagonal. -/
theorem C29_adjoint (pq : List (Vec d × Vec d)) (diag : Diag d) (z w : Vec d) :
    sqrtProd pq z diag ⬝ᵥ w = z ⬝ᵥ sqrtTransposeProd pq w diag := by
  rw [sqrtProd_eq, sqrtTransposeProd_eq, mulVec_transpose, dotProduct_comm, dotProduct_mulVec, dotProduct_comm]

/-- C29: both are linear maps, with matrices transposed to one another. -/
theorem C29_matrix (pq : List (Vec d × Vec d)) (diag : Diag d) :
    ∃ C : Matrix (Fin d) (Fin d) ℝ, (∀ z, sqrtProd pq z diag = C *ᵥ z) ∧ (∀ z, sqrtTransposeProd pq z diag = Cᵀ *ᵥ z) :=
  ⟨_, fun z => sqrtProd_eq pq z diag, fun z => sqrtTransposeProd_eq pq z diag⟩

/-- C29: with a vector diagonal, `bfgs_sqrt_det` is the determinant of that map. -/
theorem C29_det_partial (pq : List (Vec d × Vec d)) (v : Vec d) (C : Matrix (Fin d) (Fin d) ℝ)
    (hC : ∀ z, sqrtProd pq z (.vec v) = C *ᵥ z) : sqrtDet pq (.vec v) = C.det := by
  have : C = sqrtMat pq (.vec v) := by
    apply ext_of_mulVec_single
    intro i
    rw [← hC, sqrtProd_eq]
  rw [this, sqrtMat_det]
  rfl

/-- C29: with a vector diagonal, `bfgs_sqrt_log_abs_det` is the log of the absolute determinant when this is not 0. -/
theorem C29_log_abs_det_partial (pq : List (Vec d × Vec d)) (v : Vec d) (C : Matrix (Fin d) (Fin d) ℝ)
    (hC : ∀ z, sqrtProd pq z (.vec v) = C *ᵥ z) (h0 : C.det ≠ 0) :
    sqrtLogAbsDet pq (.vec v) = Real.log |C.det| := by
  have hdet := C29_det_partial pq v C hC
  rw [← hdet] at h0 ⊢
  have hl : ∀ l : List (Vec d × Vec d), (l.map fun pq => 1 - pq.1 ⬝ᵥ pq.2).prod ≠ 0 →
      Real.log |(l.map fun pq => 1 - pq.1 ⬝ᵥ pq.2).prod| = (l.map fun pq => Real.log |1 - pq.1 ⬝ᵥ pq.2|).sum := by
    intro l
    induction l with
    | nil => simp
    | cons x l ih =>
      intro h
      simp only [List.map_cons, List.prod_cons, List.sum_cons] at h ⊢
      rw [abs_mul, Real.log_mul (abs_ne_zero.2 (left_ne_zero_of_mul h)) (abs_ne_zero.2 (right_ne_zero_of_mul h)),
        ih (right_ne_zero_of_mul h)]
  have h1 : (∏ i, v i) ≠ 0 := left_ne_zero_of_mul h0
  have h2 := right_ne_zero_of_mul h0
  change sqrtLogAbsDet pq (.vec v) = Real.log |(∏ i, v i) * (pq.map fun pq => 1 - pq.1 ⬝ᵥ pq.2).prod|
  rw [abs_mul, Real.log_mul (abs_ne_zero.2 h1) (abs_ne_zero.2 h2), hl _ h2, sqrtLogAbsDet]
  simp only [Diag.logAbsSum]
  rw [Finset.abs_prod, Real.log_prod]
  intro i _
  exact abs_ne_zero.2 (Finset.prod_ne_zero_iff.1 h1 i (Finset.mem_univ _))

/-- C29 fails for a scalar diagonal `c` (the default is a float): the value returned has `c` where the determinant
of the map has `c ^ d`. -/
theorem C29_scalar_det (pq : List (Vec d × Vec d)) (c : ℝ) :
    ∃ C : Matrix (Fin d) (Fin d) ℝ, (∀ z, sqrtProd pq z (.scalar c) = C *ᵥ z) ∧
      c * C.det = c ^ d * sqrtDet pq (.scalar c) := by
  refine ⟨_, fun z => sqrtProd_eq pq z _, ?_⟩
  rw [sqrtMat_det, sqrtDet]
  simp only [Diag.at, Diag.prod, Finset.prod_const, Finset.card_univ, Fintype.card_fin]
  ring

example : sqrtDet ([] : List (Vec 2 × Vec 2)) (.scalar 2) = 2 ∧
    ∀ C : Matrix (Fin 2) (Fin 2) ℝ, (∀ z, sqrtProd [] z (.scalar 2) = C *ᵥ z) → C.det = 4 := by
  refine ⟨by simp [sqrtDet, Diag.prod], fun C hC => ?_⟩
  have : C = sqrtMat [] (.scalar 2) := by
    apply ext_of_mulVec_single
    intro i
    rw [← hC, sqrtProd_eq]
  rw [this, sqrtMat_det]
  norm_num [Diag.at]

/-! ## C30 -/

/-- The approximations built so far are inverse to one another. -/
def InvOK (out : List (PQUT d)) : Prop :=
  facs (out.map fun o => (o.p, o.q)) * (facs (out.map fun o => (o.u, o.t)))ᵀ = 1

/-- Every pair that is used has positive curvature. -/
def PosCurv (rInf : Prop) (l : List (Pair d)) : Prop := rInf → ∀ p ∈ l, 0 < p.s ⬝ᵥ p.y

theorem hess_pos (out : List (PQUT d)) (h : InvOK out) (diag : Diag d) (hd : ∀ i, diag.at i ≠ 0) (z : Vec d)
    (hz : z ≠ 0) : 0 < z ⬝ᵥ (hess (out.map fun o => (o.u, o.t)) diag *ᵥ z) := by
  rw [quad_hess]
  have hne : (sqrtMat (out.map fun o => (o.u, o.t)) diag)ᵀ *ᵥ z ≠ 0 := by
    intro h0
    apply hz
    rw [sqrtMat, transpose_mul, diagonal_transpose, ← mulVec_mulVec] at h0
    have h1 : (facs (out.map fun o => (o.u, o.t)))ᵀ *ᵥ z = 0 := by
      funext i
      have := congrFun h0 i
      rw [mulVec_diagonal] at this
      exact (mul_eq_zero.1 this).resolve_left (hd i)
    have := congrArg (fun w => facs (out.map fun o => (o.p, o.q)) *ᵥ w) h1
    simp only [mulVec_mulVec, mulVec_zero] at this
    rwa [show _ = (1 : Matrix (Fin d) (Fin d) ℝ) from h, one_mulVec] at this
  obtain ⟨i, hi⟩ := Function.ne_iff.1 hne
  exact Finset.sum_pos' (fun _ _ => sq_nonneg _) ⟨i, Finset.mem_univ _, by simpa using sq_pos_of_ne_zero hi⟩

theorem body_inv (diag : Diag d) (hd : ∀ i, diag.at i ≠ 0) (rInf : Prop) (out : List (PQUT d)) (h : InvOK out) (n : ℕ)
    (p : Pair d) (hp : rInf → 0 < p.s ⬝ᵥ p.y) :
    InvOK (out ++ [bodyFun diag rInf (out.map (fun o => (o.u, o.t)) ++ List.replicate n (0, 0)) p]) := by
  unfold InvOK
  simp only [List.map_append, List.map_cons, List.map_nil, facs_append, facs, Matrix.one_mul]
  set o := bodyFun diag rInf (out.map (fun o => (o.u, o.t)) ++ List.replicate n (0, 0)) p with ho
  have key : factor (o.t, o.u) * factor (o.p, o.q) = 1 := by
    by_cases hu : Used rInf (p.s ⬝ᵥ (hess (out.map fun o => (o.u, o.t)) diag *ᵥ p.s)) (p.s ⬝ᵥ p.y) p.flag
    · obtain ⟨⟨hmin, hsy⟩, hflag⟩ := hu
      have hsy' : 0 < p.s ⬝ᵥ p.y := hsy.elim hp id
      have hs : p.s ≠ 0 := by
        rintro h0; rw [h0, zero_dotProduct] at hsy'; exact lt_irrefl _ hsy'
      rw [ho, bodyFun_used _ _ _ _ _ ⟨⟨hmin, hsy⟩, hflag⟩]
      exact factor_inverse p.s p.y _ _ _ hsy' (hess_pos out h diag hd p.s hs) rfl rfl
    · rw [ho, bodyFun_skip _ _ _ _ _ hu]; simp
  have key' : factor (o.p, o.q) * factor (o.t, o.u) = 1 := mul_eq_one_comm.1 key
  rw [transpose_mul, factor_transpose, Matrix.mul_assoc, ← Matrix.mul_assoc (facs _) (facs _)ᵀ, h, Matrix.one_mul, key']

theorem scan_inv (diag : Diag d) (hd : ∀ i, diag.at i ≠ 0) (rInf : Prop) (m : ℕ) (l : List (Pair d)) :
    ∀ out : List (PQUT d), InvOK out → PosCurv rInf l →
      InvOK (out ++ scanPairs diag rInf m (out.map fun o => (o.u, o.t)) l) := by
  induction l with
  | nil => intro out h _; simpa [scanPairs] using h
  | cons p l ih =>
    intro out h hc
    have h1 := body_inv diag hd rInf out h (m - (out.map fun o => (o.u, o.t)).length) p
      (fun hr => hc hr p List.mem_cons_self)
    have h2 := ih _ h1 (fun hr q hq => hc hr q (List.mem_cons_of_mem _ hq))
    unfold scanPairs
    simp only [List.map_append, List.map_cons, List.map_nil, List.append_assoc, List.singleton_append] at h2
    exact h2

theorem damped_curv (diag : Diag d) (r : Option ℝ) (l : List (Pair d))
    (hc : r = none → ∀ p ∈ l, 0 < p.s ⬝ᵥ p.y) : PosCurv (r = none) (l.map (damp diag (lambd diag r l))) := by
  intro hr p hp
  obtain ⟨q, hq, rfl⟩ := List.mem_map.1 hp
  have h0 : lambd diag r l = 0 := by
    subst hr; unfold lambd; split <;> simp_all
  have : damp diag (lambd diag r l) q = q := by
    rw [h0]; simp [damp]
  rw [this]
  exact hc hr q hq

theorem pqut_inv (diag : Diag d) (hd : ∀ i, diag.at i ≠ 0) (r : Option ℝ) (l : List (Pair d))
    (hc : r = none → ∀ p ∈ l, 0 < p.s ⬝ᵥ p.y) : InvOK (sqrtPqut diag r l) := by
  have := scan_inv diag hd (r = none) l.length (l.map (damp diag (lambd diag r l))) [] (by simp [InvOK, facs])
    (damped_curv diag r l hc)
  simpa [sqrtPqut] using this

theorem hessian_eq (diag : Diag d) (out : List (PQUT d)) (z : Vec d) :
    hessian diag out z = hess (out.map fun o => (o.u, o.t)) diag *ᵥ z := by
  simp only [hessian, sqrtProd_eq, sqrtTransposeProd_eq, mulVec_mulVec, hess]

theorem invHessian_eq (diag : Diag d) (out : List (PQUT d)) (z : Vec d) :
    invHessian diag out z = hess (out.map fun o => (o.p, o.q)) diag.inv *ᵥ z := by
  simp only [invHessian, sqrtProd_eq, sqrtTransposeProd_eq, mulVec_mulVec, hess]

theorem hess_mul (diag : Diag d) (hd : ∀ i, diag.at i ≠ 0) (out : List (PQUT d)) (h : InvOK out) :
    hess (out.map fun o => (o.p, o.q)) diag.inv * hess (out.map fun o => (o.u, o.t)) diag = 1 := by
  set P := facs (out.map fun o => (o.p, o.q)) with hP
  set U := facs (out.map fun o => (o.u, o.t)) with hU
  have h1 : P * Uᵀ = 1 := h
  have h2 : Pᵀ * U = 1 := by
    have h3 := congrArg transpose h1
    rw [transpose_mul, transpose_transpose, transpose_one] at h3
    exact mul_eq_one_comm.1 h3
  have hdd : diagonal diag.inv.at * diagonal diag.at = (1 : Matrix (Fin d) (Fin d) ℝ) := by
    rw [diagonal_mul_diagonal, ← diagonal_one]
    congr 1; funext i
    cases diag with
    | scalar c => simpa [Diag.inv, Diag.at] using inv_mul_cancel₀ (hd i)
    | vec v => simpa [Diag.inv, Diag.at] using inv_mul_cancel₀ (hd i)
  simp only [hess, sqrtMat, transpose_mul, diagonal_transpose]
  calc P * diagonal diag.inv.at * (diagonal diag.inv.at * Pᵀ) * (U * diagonal diag.at * (diagonal diag.at * Uᵀ))
      = P * diagonal diag.inv.at * (diagonal diag.inv.at * (Pᵀ * U) * diagonal diag.at) * (diagonal diag.at * Uᵀ) := by
        simp only [Matrix.mul_assoc]
    _ = P * (diagonal diag.inv.at * diagonal diag.at) * Uᵀ := by
        rw [h2, Matrix.mul_one, hdd, Matrix.mul_one, Matrix.mul_one]; simp only [Matrix.mul_assoc]; rw [← Matrix.mul_assoc (diagonal _) (diagonal _), hdd, Matrix.one_mul]
    _ = 1 := by rw [hdd, Matrix.mul_one, h1]

/-- C30: for every history of steps and gradient differences and every non-zero diagonal, with `r > -inf` or positive
curvatures: the Hessian approximation (from `us, ts`) and the inverse approximation (from `ps, qs`) are inverse to one
another. -/
theorem C30_inverse (diag : Diag d) (hd : ∀ i, diag.at i ≠ 0) (r : Option ℝ) (l : List (Pair d))
    (hc : r = none → ∀ p ∈ l, 0 < p.s ⬝ᵥ p.y) (z : Vec d) :
    invHessian diag (sqrtPqut diag r l) (hessian diag (sqrtPqut diag r l) z) = z ∧
    hessian diag (sqrtPqut diag r l) (invHessian diag (sqrtPqut diag r l) z) = z := by
  have h := hess_mul diag hd _ (pqut_inv diag hd r l hc)
  simp only [hessian_eq, invHessian_eq, mulVec_mulVec]
  exact ⟨by rw [h, one_mulVec], by rw [mul_eq_one_comm.1 h, one_mulVec]⟩

/-- C30: both are positive definite and symmetric. -/
theorem C30_posDef (diag : Diag d) (hd : ∀ i, diag.at i ≠ 0) (r : Option ℝ) (l : List (Pair d))
    (hc : r = none → ∀ p ∈ l, 0 < p.s ⬝ᵥ p.y) (z w : Vec d) :
    (z ≠ 0 → 0 < z ⬝ᵥ hessian diag (sqrtPqut diag r l) z ∧ 0 < z ⬝ᵥ invHessian diag (sqrtPqut diag r l) z) ∧
    z ⬝ᵥ hessian diag (sqrtPqut diag r l) w = hessian diag (sqrtPqut diag r l) z ⬝ᵥ w ∧
    z ⬝ᵥ invHessian diag (sqrtPqut diag r l) w = invHessian diag (sqrtPqut diag r l) z ⬝ᵥ w := by
  have hinv := pqut_inv diag hd r l hc
  have hsymm : ∀ (pq : List (Vec d × Vec d)) (dg : Diag d) (a b : Vec d),
      a ⬝ᵥ (hess pq dg *ᵥ b) = (hess pq dg *ᵥ a) ⬝ᵥ b := by
    intro pq dg a b
    conv_rhs => rw [← hess_transpose]
    rw [dotProduct_mulVec, mulVec_transpose]
  refine ⟨fun hz => ⟨?_, ?_⟩, ?_, ?_⟩
  · rw [hessian_eq]; exact hess_pos _ hinv diag hd z hz
  · have hid := (C30_inverse diag hd r l hc z).2
    set w := invHessian diag (sqrtPqut diag r l) z with hw
    have hw0 : w ≠ 0 := by
      rintro h0
      rw [h0, hessian_eq, mulVec_zero] at hid
      exact hz hid.symm
    have := hess_pos _ hinv diag hd w hw0
    rw [← hessian_eq, hid, dotProduct_comm] at this
    exact this
  · rw [hessian_eq, hessian_eq]; exact hsymm _ _ _ _
  · rw [invHessian_eq, invHessian_eq]; exact hsymm _ _ _ _

theorem scan_snoc (diag : Diag d) (rInf : Prop) (m : ℕ) (l : List (Pair d)) (p : Pair d) :
    ∀ done : List (Vec d × Vec d), ∃ n : ℕ,
      scanPairs diag rInf m done (l ++ [p]) = scanPairs diag rInf m done l ++
        [bodyFun diag rInf (done ++ (scanPairs diag rInf m done l).map (fun o => (o.u, o.t)) ++ List.replicate n (0, 0)) p] := by
  induction l with
  | nil => intro done; exact ⟨m - done.length, by simp [scanPairs]⟩
  | cons q l ih =>
    intro done
    set o := bodyFun diag rInf (done ++ List.replicate (m - done.length) (0, 0)) q with ho
    obtain ⟨n, hn⟩ := ih (done ++ [(o.u, o.t)])
    refine ⟨n, ?_⟩
    rw [List.cons_append]
    unfold scanPairs
    simp only [← ho]
    rw [hn]
    simp

theorem secant_step (out : List (PQUT d)) (diag : Diag d) (rInf : Prop) (n : ℕ) (p : Pair d)
    (hsy : 0 < p.s ⬝ᵥ p.y) (hsB : 0 < p.s ⬝ᵥ (hess (out.map fun o => (o.u, o.t)) diag *ᵥ p.s))
    (hu : Used rInf (p.s ⬝ᵥ (hess (out.map fun o => (o.u, o.t)) diag *ᵥ p.s)) (p.s ⬝ᵥ p.y) p.flag) :
    hess ((out ++ [bodyFun diag rInf (out.map (fun o => (o.u, o.t)) ++ List.replicate n (0, 0)) p]).map
      fun o => (o.u, o.t)) diag *ᵥ p.s = p.y := by
  set B := hess (out.map fun o => (o.u, o.t)) diag with hB
  set o := bodyFun diag rInf (out.map (fun o => (o.u, o.t)) ++ List.replicate n (0, 0)) p with ho
  rw [bodyFun_used _ _ _ _ _ hu, ← hB] at ho
  rw [List.map_append, List.map_cons, List.map_nil, hess_snoc, ← hB, ← mulVec_mulVec, ← mulVec_mulVec, factor_transpose,
    factor_mulVec, factor_mulVec, ho]
  simp only
  set b := B *ᵥ p.s with hb
  set sy := p.s ⬝ᵥ p.y
  set sB := p.s ⬝ᵥ b
  set a := Real.sqrt (sB / sy) with ha
  have hapos : 0 < a := Real.sqrt_pos.2 (div_pos hsB hsy)
  have ha2 : a ^ 2 = sB / sy := Real.sq_sqrt (div_pos hsB hsy).le
  have hsyB : a * sy / sB = 1 / a := by
    have : sB = a ^ 2 * sy := by rw [ha2]; field_simp
    rw [this]; field_simp
  have hus : (a • p.y + b) ⬝ᵥ p.s = a * sy + sB := by
    rw [add_dotProduct, smul_dotProduct, dotProduct_comm p.y, dotProduct_comm b]; rfl
  rw [hus]
  have h1 : p.s - (a * sy + sB) • ((1 / sB) • p.s) = (-(1 / a)) • p.s := by
    rw [smul_smul]
    have : (a * sy + sB) * (1 / sB) = 1 / a + 1 := by
      rw [← hsyB]; field_simp
    rw [this]; module
  rw [h1, mulVec_smul, ← hb, smul_dotProduct, dotProduct_smul]
  change (-(1 / a)) • b - ((1 / sB) • ((-(1 / a)) • sB)) • (a • p.y + b) = p.y
  have h2 : (1 / sB) • ((-(1 / a)) • sB) = -(1 / a) := by
    simp only [smul_eq_mul]; field_simp
  rw [h2, smul_add, smul_smul]
  have h3 : -(1 / a) * a = -1 := by field_simp
  rw [h3]; module

/-- C30, secant equation: when the last pair `(s, y)` is used, the Hessian approximation maps `s` to the (damped)
gradient difference `y + λ D² s`, and the inverse approximation maps it back. It is used when its flag is set and both
the curvature and `s · B s`, `B` being the approximation before it, exceed `1e-10`. -/
theorem C30_secant (diag : Diag d) (hd : ∀ i, diag.at i ≠ 0) (r : Option ℝ) (l : List (Pair d)) (p : Pair d)
    (hc : r = none → ∀ p' ∈ l ++ [p], 0 < p'.s ⬝ᵥ p'.y) :
    let out := sqrtPqut diag r (l ++ [p])
    let lam := lambd diag r (l ++ [p])
    let ybar : Vec d := fun i => p.y i + lam * diag.at i ^ 2 * p.s i
    p.flag = true → 1e-10 < p.s ⬝ᵥ ybar → 1e-10 < p.s ⬝ᵥ hessian diag out.dropLast p.s →
    hessian diag out p.s = ybar ∧ invHessian diag out ybar = p.s := by
  intro out lam ybar hf hsy hsB
  obtain ⟨n, hn⟩ := scan_snoc diag (r = none) (l ++ [p]).length (l.map (damp diag lam)) (damp diag lam p) []
  have hout : out = scanPairs diag (r = none) (l ++ [p]).length [] (l.map (damp diag lam)) ++
      [bodyFun diag (r = none) ((scanPairs diag (r = none) (l ++ [p]).length [] (l.map (damp diag lam))).map
        (fun o => (o.u, o.t)) ++ List.replicate n (0, 0)) (damp diag lam p)] := by
    rw [List.nil_append] at hn
    rw [← hn, ← List.map_singleton, ← List.map_append]; rfl
  have hdrop : out.dropLast = scanPairs diag (r = none) (l ++ [p]).length [] (l.map (damp diag lam)) := by
    rw [hout, List.dropLast_concat]
  rw [hdrop, hessian_eq] at hsB
  have h1 : hessian diag out p.s = ybar := by
    rw [hessian_eq, hout]
    have hpos : (0 : ℝ) < 1e-10 := by norm_num
    refine secant_step _ diag (r = none) n (damp diag lam p) (hpos.trans hsy) (hpos.trans hsB)
      ⟨⟨?_, Or.inr (hpos.trans hsy)⟩, hf⟩
    refine lt_min ?_ ?_
    · exact lt_of_lt_of_le hsB (le_abs_self _)
    · exact lt_of_lt_of_le hsy (le_abs_self _)
  refine ⟨h1, ?_⟩
  rw [← h1]
  exact (C30_inverse diag hd r (l ++ [p]) hc p.s).1

theorem pairs_snoc (h : List (Vec d × Vec d)) (a b : Vec d × Vec d) (fs : List Bool) (f : Bool) (hl : fs.length = h.length) :
    pairs (h ++ [a, b]) (fs ++ [f]) = pairs (h ++ [a]) fs ++ [⟨b.1 - a.1, b.2 - a.2, f⟩] := by
  induction h generalizing fs with
  | nil =>
    have : fs = [] := List.eq_nil_of_length_eq_zero hl
    subst this; rfl
  | cons x h ih =>
    obtain ⟨g, fs, rfl⟩ : ∃ g fs', fs = g :: fs' := by
      cases fs with
      | nil => simp at hl
      | cons g fs => exact ⟨g, fs, rfl⟩
    have hl' : fs.length = h.length := by simpa using hl
    cases h with
    | nil =>
      have : fs = [] := List.eq_nil_of_length_eq_zero hl'
      subst this; rfl
    | cons y h =>
      have := ih fs hl'
      simp only [List.cons_append, pairs] at this ⊢
      rw [this]

/-- C30, secant equation in terms of the rows: after a history ending in rows `(x, g)`, `(x', g')` of values and gradients, when the last pair is used,
the Hessian approximation maps `x' - x` to `g' - g` (plus the damping) and the inverse approximation maps it back. -/
theorem C30_rows (diag : Diag d) (hd : ∀ i, diag.at i ≠ 0) (r : Option ℝ) (h : List (Vec d × Vec d)) (x g x' g' : Vec d) (fs : List Bool) (hl : fs.length = h.length)
    (hc : r = none → ∀ p ∈ pairs (h ++ [(x, g), (x', g')]) (fs ++ [true]), 0 < p.s ⬝ᵥ p.y) :
    let l := pairs (h ++ [(x, g), (x', g')]) (fs ++ [true])
    let out := sqrtPqut diag r l
    let ybar : Vec d := fun i => (g' i - g i) + lambd diag r l * diag.at i ^ 2 * (x' i - x i)
    1e-10 < (x' - x) ⬝ᵥ ybar → 1e-10 < (x' - x) ⬝ᵥ hessian diag out.dropLast (x' - x) →
    hessian diag out (x' - x) = ybar ∧ invHessian diag out ybar = x' - x := by
  intro l out ybar h1 h2
  have hl' : l = pairs (h ++ [(x, g)]) fs ++ [⟨x' - x, g' - g, true⟩] := pairs_snoc h (x, g) (x', g') fs true hl
  have key := C30_secant diag hd r (pairs (h ++ [(x, g)]) fs) ⟨x' - x, g' - g, true⟩ (by rw [← hl']; exact hc)
  rw [← hl'] at key
  exact key rfl h1 h2

/-- A case of `C30_rows`: on the line, gradients twice the values, rows 0 and 1. -/
example : let l : List (Pair 1) := pairs ([] ++ [(0, 0), (fun _ => 1, fun _ => 2)]) ([] ++ [true])
    l = [⟨fun _ => 1, fun _ => 2, true⟩] ∧ (1e-10 : ℝ) < (((fun _ => 1) - 0 : Vec 1) ⬝ᵥ fun i => (2 - (0 : Vec 1) i) + lambd (Diag.scalar 1) none l * (Diag.scalar (d := 1) 1).at i ^ 2 * (1 - (0 : Vec 1) i)) ∧
    (1e-10 : ℝ) < ((fun _ => 1) - 0 : Vec 1) ⬝ᵥ hessian (Diag.scalar 1) (sqrtPqut (Diag.scalar 1) none l).dropLast ((fun _ => 1) - 0) := by
  have hl : pairs (d := 1) ([] ++ [(0, 0), (fun _ => 1, fun _ => 2)]) ([] ++ [true]) = [⟨fun _ => 1, fun _ => 2, true⟩] := by
    simp [pairs, sub_zero]
  intro l
  have hl : l = [⟨fun _ => 1, fun _ => 2, true⟩] := hl
  refine ⟨hl, ?_, ?_⟩
  · rw [hl]; simp [lambd, dotProduct]; norm_num
  · rw [hl]; simp [sqrtPqut, hessian, scanPairs, sqrtProd, sqrtTransposeProd, Diag.at, dotProduct]; norm_num

/-! ## C31 -/

theorem lambd_ge (diag : Diag d) (r : ℝ) (l : List (Pair d)) (p : Pair d) (hp : p ∈ l) (hB : 1e-10 ≤ sBs diag p.s) :
    -(p.s ⬝ᵥ p.y) / sBs diag p.s + r ≤ lambd diag (some r) l := by
  have hmem : -(p.s ⬝ᵥ p.y) / sBs diag p.s ∈ ratios diag l := by
    unfold ratios
    exact List.mem_map.2 ⟨p, List.mem_filter.2 ⟨hp, by simpa using hB⟩, rfl⟩
  unfold lambd
  obtain ⟨m, hm⟩ : ∃ m, (ratios diag l).max? = some m := by
    cases h : (ratios diag l).max? with
    | some m => exact ⟨m, rfl⟩
    | none => rw [List.max?_eq_none_iff] at h; rw [h] at hmem; simp at hmem
  rw [hm]
  have hle : -(p.s ⬝ᵥ p.y) / sBs diag p.s ≤ m := (List.max?_eq_some_iff.1 hm).2 _ hmem
  exact le_max_of_le_right (by linarith)

theorem damp_dot (diag : Diag d) (lam : ℝ) (p : Pair d) :
    (p.s ⬝ᵥ fun i => p.y i + lam * diag.at i ^ 2 * p.s i) = p.s ⬝ᵥ p.y + lam * sBs diag p.s := by
  simp only [dotProduct, sBs, Finset.mul_sum, ← Finset.sum_add_distrib]
  exact Finset.sum_congr rfl fun i _ => by ring

/-- C31: after damping with parameter `r`, every pair whose `s·B₀s` is at least `1e-10` has curvature at least `r s·B₀s`. -/
theorem C31_curvature (diag : Diag d) (r : ℝ) (l : List (Pair d)) (p : Pair d) (hp : p ∈ l)
    (hB : 1e-10 ≤ sBs diag p.s) :
    r * sBs diag p.s ≤ p.s ⬝ᵥ fun i => p.y i + lambd diag (some r) l * diag.at i ^ 2 * p.s i := by
  have hpos : 0 < sBs diag p.s := lt_of_lt_of_le (by norm_num) hB
  have h := lambd_ge diag r l p hp hB
  rw [damp_dot]
  have h2 := mul_le_mul_of_nonneg_right h hpos.le
  have h3 : (-(p.s ⬝ᵥ p.y) / sBs diag p.s + r) * sBs diag p.s = -(p.s ⬝ᵥ p.y) + r * sBs diag p.s := by
    field_simp
  linarith

/-- C31: so with `r > 0` no such pair has its sign test fail. -/
theorem C31_not_skipped (diag : Diag d) (r : ℝ) (hr : 0 < r) (l : List (Pair d)) (p : Pair d) (hp : p ∈ l)
    (hB : 1e-10 ≤ sBs diag p.s) :
    0 < p.s ⬝ᵥ fun i => p.y i + lambd diag (some r) l * diag.at i ^ 2 * p.s i :=
  lt_of_lt_of_le (mul_pos hr (lt_of_lt_of_le (by norm_num) hB)) (C31_curvature diag r l p hp hB)

/-- C31: no damping when every curvature is already at least `r`; and the shift is never negative. -/
theorem C31_no_damping (diag : Diag d) (r : ℝ) (l : List (Pair d))
    (h : ∀ p ∈ l, 1e-10 ≤ sBs diag p.s → r * sBs diag p.s ≤ p.s ⬝ᵥ p.y) :
    lambd diag (some r) l = 0 ∧ ∀ r' : Option ℝ, ∀ l' : List (Pair d), 0 ≤ lambd diag r' l' := by
  constructor
  · unfold lambd
    cases hm : (ratios diag l).max? with
    | none => rfl
    | some m =>
      have hmem := (List.max?_eq_some_iff.1 hm).1
      unfold ratios at hmem
      obtain ⟨p, hp, rfl⟩ := List.mem_map.1 hmem
      obtain ⟨hp1, hp2⟩ := List.mem_filter.1 hp
      have hB : 1e-10 ≤ sBs diag p.s := by simpa using hp2
      have hpos : 0 < sBs diag p.s := lt_of_lt_of_le (by norm_num) hB
      have := h p hp1 hB
      refine max_eq_left ?_
      rw [neg_div, neg_add_nonpos_iff, le_div_iff₀ hpos]
      exact this
  · intro r' l'
    unfold lambd
    split
    · exact le_max_left _ _
    · exact le_rfl

/-- Non-vacuity: a history of two pairs in dimension 2, one of negative curvature, damped with `r = 1/2`. -/
example : ∃ l : List (Pair 2), l.length = 2 ∧ (∃ p ∈ l, p.s ⬝ᵥ p.y < 0 ∧ 1e-10 ≤ sBs (.scalar 1) p.s) ∧
    (∃ p ∈ l, 0 < p.s ⬝ᵥ p.y) := by
  refine ⟨[⟨![1, 0], ![-1, 2], true⟩, ⟨![1, 1], ![1, 1], true⟩], rfl, ⟨_, List.mem_cons_self, ?_⟩,
    ⟨_, List.mem_cons_of_mem _ List.mem_cons_self, ?_⟩⟩
  · simp [dotProduct, sBs, Diag.at, Fin.sum_univ_two]; norm_num
  · simp [dotProduct, Fin.sum_univ_two]

end Mocat.Props
